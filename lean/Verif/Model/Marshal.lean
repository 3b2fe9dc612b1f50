import Verif.Model.Option
import Verif.Model.Access
/-!
marshal.go and the sorting of members in sort.go.

The buffer and the indentation counter are threaded through as a state. `range` over a map goes through `kvs` in list order; theorems
quantify over the order of `kvs`. `sort.Sort` is a parameter.
-/
namespace JV

/-- `sort.Sort`, which only sees the number of elements and a function comparing them by position: the order in which the elements
(named by their original position) stand afterwards. The code of package sort is not modelled; what is assumed about it is `Spec.GoodSort`. -/
abbrev SortFn := Nat → (Nat → Nat → Bool) → List Nat

/-- Less at two positions of a slice -/
def lessAt {α : Type} (less : α → α → Bool) (l : List α) (i j : Nat) : Bool :=
  match l[i]?, l[j]? with
  | some a, some b => less a b
  | _, _ => false

/-- a slice after `sort.Sort` with the given Less -/
def sortBy {α : Type} (S : SortFn) (less : α → α → Bool) (l : List α) : List α := (S l.length (lessAt less l)).filterMap fun i => l[i]?

/-- buffer contents and `opt.indent.cnt` -/
structure MSt where
  buf : Bytes := []
  cnt : Nat := 0

/-- `buf.Write(bs)`, internal/buffer/buffer_impl.go:11-32: the buffer is a byte slice that is appended to -/
def MSt.w (st : MSt) (bs : Bytes) : MSt := { st with buf := st.buf ++ bs }

/-- marshal.go:287-292 `writeIndent` -/
def writeIndent (pre ind : Bytes) (st : MSt) : MSt := (st.w pre).w (List.replicate st.cnt ind).flatten

/-- marshal.go:244-247, 271-274, 307-310, 321-324: newline and indentation if enabled -/
def newLine (o : Opt) (st : MSt) : MSt :=
  match o.indent with
  | some (pre, ind) => writeIndent pre ind (st.w [0x0A])
  | none => st

/-- conv.go:125-134 as a write to the buffer -/
def writeEscaped (o : Opt) (s : Bytes) (st : MSt) : R MSt := do
  let b ← escapeString o.escaper s
  pure (st.w b)

/-- marshal.go:86-90 `marshalString`, and the quoted writes in 126-131, 157-161 -/
def writeQuoted (o : Opt) (s : Bytes) (st : MSt) : R MSt := do
  let st ← writeEscaped o s (st.w [0x22])
  pure (st.w [0x22])

/-- conv.go:10-15 `formatBool` -/
def formatBool (b : Bool) : Bytes := if b then [0x74, 0x72, 0x75, 0x65] else [0x66, 0x61, 0x6C, 0x73, 0x65]
def nullText : Bytes := [0x6E, 0x75, 0x6C, 0x6C]

/-- result of the functions that may report an error: the state (what was written stays written) and the error -/
abbrev MRet := R (MSt × Option Err)

/-- marshal.go:112-140 `marshalNaN` -/
def marshalNaN (E : Env) (o : Opt) (st : MSt) : MRet :=
  if o.nanType = 1 then
    if !isValidFloat o.nanToFloat then .ok (st, some .unsupportedFloatInOpt) else .ok (st.w (E.jsonFloat o.nanToFloat), none)
  else if o.nanType = 2 then .ok (st.w nullText, none)
  else if o.nanType = 3 then
    if o.nanToString = [] then .ok (st.w [0x22, 0x4E, 0x61, 0x4E, 0x22], none)
    else do
      let st ← writeQuoted o o.nanToString st
      pure (st, none)
  else .ok (st, some .unsupportedFloat)

/-- marshal.go:142-170 `marshalInfP` -/
def marshalInfP (E : Env) (o : Opt) (st : MSt) : MRet :=
  if o.infType = 1 then
    if !isValidFloat o.infToFloat then .ok (st, some .unsupportedFloatInOpt) else .ok (st.w (E.jsonFloat o.infToFloat), none)
  else if o.infType = 2 then .ok (st.w nullText, none)
  else if o.infType = 3 then
    if o.infPos = [] then .ok (st.w [0x22, 0x2B, 0x49, 0x6E, 0x66, 0x22], none)
    else do
      let st ← writeQuoted o o.infPos st
      pure (st, none)
  else .ok (st, some .unsupportedFloat)

/-- `strings.TrimLeft(s, "+")` -/
def trimPlus (s : Bytes) : Bytes := s.dropWhile (· == 0x2B)

/-- marshal.go:188-198 what stands for -Inf as a string (before escaping) -/
def infNegString (o : Opt) : Bytes :=
  if o.infNeg ≠ [] then o.infNeg
  else if o.infPos ≠ [] then 0x2D :: trimPlus o.infPos
  else [0x2D, 0x49, 0x6E, 0x66]

/-- marshal.go:172-203 `marshalInfN`; in the last case of 195-197 the code writes `-Inf` without escaping, which makes no difference -/
def marshalInfN (E : Env) (o : Opt) (st : MSt) : MRet :=
  if o.infType = 1 then
    if !isValidFloat o.infToFloat then .ok (st, some .unsupportedFloatInOpt) else .ok (st.w (E.jsonFloat (fneg o.infToFloat)), none)
  else if o.infType = 2 then .ok (st.w nullText, none)
  else if o.infType = 3 then
    if o.infNeg = [] ∧ o.infPos = [] then .ok (((st.w [0x22]).w [0x2D, 0x49, 0x6E, 0x66]).w [0x22], none)
    else do
      let st ← writeQuoted o (infNegString o) st
      pure (st, none)
  else .ok (st, some .unsupportedFloat)

/-- marshal.go:96-110 `marshalNumber` -/
def marshalNumber (E : Env) (o : Opt) (src : Bytes) (n : Num) (st : MSt) : MRet :=
  if src.length > 0 then .ok (st.w src, none)
  else if isInfP n.f64 then marshalInfP E o st
  else if isInfN n.f64 then marshalInfN E o st
  else marshalNaN E o st

/-! ### order of members -/

/-- Go's string comparison `a < b` on bytes (also `strings.Compare(a, b) < 0`) -/
def bytesLt : Bytes → Bytes → Bool
  | [], [] => false
  | [], _ :: _ => true
  | _ :: _, [] => false
  | a :: as, b :: bs => a < b || (a == b && bytesLt as bs)
/-- `a <= b` -/
def bytesLe (a b : Bytes) : Bool := !bytesLt b a

/-- sort.go:185-187 `DefaultStringSequence` -/
def defaultStringSequence : LessFn := fun _ k1 k2 _ _ => bytesLe k1 k2

/-- sort.go:252-257 the map made from `MarshalKeySequence`; a later entry overwrites an earlier one -/
def seqMapFrom (i : Nat) : List Bytes → (Bytes → Option Nat) → (Bytes → Option Nat)
  | [], m => m
  | s :: l, m => seqMapFrom (i + 1) l (fun k => if k = s then some i else m k)
def seqMap (l : List Bytes) : Bytes → Option Nat := seqMapFrom 0 l (fun _ => none)

/-- sort.go:250-273 `newSortStringSliceV`: the sequence used (the cache is also filled, which no later step can tell) -/
def Opt.sequence (o : Opt) : Bytes → Option Nat :=
  match o.keySeqCache with
  | some m => m
  | none => seqMap o.keySeq

/-- sort.go:275-279 `newSortStringSliceVBySetSeq`: `int(child.id)` -/
def idMap (kvs : List Ent) : Bytes → Option Nat := fun k => (lookup k kvs).map fun e => e.id.toNat

/-- sort.go:299-319 `Less` of sortStringSliceV on two keys -/
def seqLess (seq : Bytes → Option Nat) (k1 k2 : Bytes) : Bool :=
  match seq k1, seq k2 with
  | some i, some j => decide (i < j)
  | some _, none => true
  | none, some _ => false
  | none, none => bytesLe k1 k2

/-- the members in the order in which they are written, marshal.go:228-242 with sort.go:189-199, 208-236, 238-248; each comes with
something (`β`) attached, which takes no part in the comparison -/
def sortMembers {β : Type} (S : SortFn) (o : Opt) (par : Option ParentInfo) (kvs : List Ent) (ms : List (Ent × β)) : List (Ent × β) :=
  match o.lessFunc with
  | some less => sortBy S (fun a b => less par a.1.key b.1.key a.1.v b.1.v) ms
  | none =>
    if o.keySeq.length > 0 then sortBy S (fun a b => seqLess o.sequence a.1.key b.1.key) ms
    else if o.bySetSeq then sortBy S (fun a b => seqLess (idMap kvs) a.1.key b.1.key) ms
    else ms

/-- how a child is marshalled: given the parent info and the state -/
abbrev Writer := Option ParentInfo → MSt → MRet

/-- jsonvalue.go:383-385 `IsNull` for a non-nil value -/
def isNullV : V → Bool
  | .null => true
  | _ => false

/-- marshal.go:259-285 `writeObjectChildren`; the error of the child is dropped (line 283). Result: the state and `written`. -/
def writeMember (o : Opt) (par : Option ParentInfo) (first : Bool) (e : Ent) (wr : Writer) (st : MSt) : R (MSt × Bool) :=
  match e.v with
  | .nilp => .panic
  | _ =>
    if isNullV e.v && o.omitNull then .ok (st, false)
    else do
      let st := if first then st else st.w [0x2C]
      let st := newLine o st
      let st := st.w [0x22]
      let st ← writeEscaped o e.key st
      let st := st.w (if o.indent.isSome then [0x22, 0x3A, 0x20] else [0x22, 0x3A])
      let (st, _) ← wr par st
      pure (st, true)

/-- the loops marshal.go:252-257, sort.go:193-198, 243-247: `firstWritten` is the flag of the *previous* member only -/
def writeMembers (o : Opt) (par : Option ParentInfo) : Bool → List (Ent × Writer) → MSt → R MSt
  | _, [], st => .ok st
  | firstWritten, (e, wr) :: ms, st => do
    let par' := if o.lessFunc.isSome then some (newParentInfo e.v par (stringKey e.key)) else none
    let (st, written) ← writeMember o par' (!firstWritten) e wr st
    writeMembers o par written ms st

mutual
/-- marshal.go:66-84 `marshalToBuffer` with marshalBoolean (92-94), marshalNull (215-217), marshalObject (219-250) and marshalArray (294-325); nil panics at `v.valueType` -/
def marshalTo (E : Env) (S : SortFn) (o : Opt) : V → Writer
  | .nilp => fun _ _ => .panic
  | .notExist => fun _ st => .ok (st, none)
  | .str s => fun _ st => do
    let st ← writeQuoted o s st
    pure (st, none)
  | .num src n => fun _ st => marshalNumber E o src n st
  | .bool b => fun _ st => .ok (st.w (formatBool b), none)
  | .null => fun _ st => .ok (st.w nullText, none)
  | .arr xs => fun par st =>
    if xs.length = 0 then .ok (st.w [0x5B, 0x5D], none)
    else do
      let st := { st with cnt := st.cnt + 1 }
      let st := st.w [0x5B]
      let st ← marshalElems E S o (.arr xs) xs 0 par st
      let st := { st with cnt := st.cnt - 1 }
      let st := newLine o st
      pure (st.w [0x5D], none)
  | .obj _ kvs _ => fun par st =>
    if kvs.length = 0 then .ok (st.w [0x7B, 0x7D], none)
    else do
      let st := { st with cnt := st.cnt + 1 }
      let st := st.w [0x7B]
      let st ← writeMembers o par false (sortMembers S o par kvs (memberWriters E S o kvs)) st
      let st := { st with cnt := st.cnt - 1 }
      let st := newLine o st
      pure (st.w [0x7D], none)
/-- marshal.go:303-316 the callback for the elements from index `i` on; `v` is the array. Errors are dropped (312, 314). -/
def marshalElems (E : Env) (S : SortFn) (o : Opt) (v : V) : List V → Nat → Option ParentInfo → MSt → R MSt
  | [], _, _, st => .ok st
  | x :: xs, i, par, st => do
    let st := if i > 0 then st.w [0x2C] else st
    let st := newLine o st
    let (st, _) ← marshalTo E S o x (if o.lessFunc.isSome then some (newParentInfo v par (intKey i)) else none) st
    marshalElems E S o v xs (i + 1) par st
/-- every member with the function that marshals its value -/
def memberWriters (E : Env) (S : SortFn) (o : Opt) : List Ent → List (Ent × Writer)
  | [] => []
  | ⟨k, i, v⟩ :: es => (⟨k, i, v⟩, marshalTo E S o v) :: memberWriters E S o es
end

/-- marshal.go:38-53 `Marshal` with the global default options `d`: bytes and error. nil bytes and empty bytes are the same here. -/
def marshal (E : Env) (S : SortFn) (d : Opt) (v : V) (opts : List MOpt) : R (Bytes × Option Err) :=
  match v with
  | .nilp => .panic
  | .notExist => .ok ([], some .valueUninitialized)
  | v => do
    let (st, e) ← marshalTo E S (combineOptions d opts) v none {}
    match e with
    | some e => pure ([], some e)
    | none => pure (st.buf, none)

/-- marshal.go:16-22 `MustMarshal`, 27-33 `MustMarshalString` -/
def mustMarshal (E : Env) (S : SortFn) (d : Opt) (v : V) (opts : List MOpt) : R Bytes := do
  let (b, _) ← marshal E S d v opts
  pure b

/-- marshal.go:58-64 `MarshalString` -/
def marshalString (E : Env) (S : SortFn) (d : Opt) (v : V) (opts : List MOpt) : R (Bytes × Option Err) := do
  let (b, e) ← marshal E S d v opts
  match e with
  | some e => pure ([], some e)
  | none => pure (b, none)

/-- marshaler_unmarshaler.go:17-19 `MarshalJSON` -/
def marshalJSON (E : Env) (S : SortFn) (d : Opt) (v : V) : R (Bytes × Option Err) :=
  marshal E S d v []

/-- marshaler_unmarshaler.go:32-34 `MarshalBinary` -/
def marshalBinary (E : Env) (S : SortFn) (d : Opt) (v : V) : R (Bytes × Option Err) :=
  marshal E S d v []

end JV
