import Verif.Model.Marshal
/-!
Marshal with a MarshalLessFunc once more, where a KeyPath is a Go slice: `append` writes into the backing array if there is room, so that
the paths of siblings may share storage. Model/Marshal takes the path as a list; Proofs/KeyPathSlice shows that the less function sees the
same path either way.
-/
namespace JV

/-- all backing arrays; the length of an array is its capacity. A `*Key` is never written to after it was made (sort.go:161-174), so the
array holds the keys themselves. -/
abbrev PathMem := List (List Key)

/-- a slice that starts at the beginning of its array -/
structure PathSlice where
  arr : Nat
  len : Nat
deriving DecidableEq, Repr

/-- the elements of a slice -/
def PathSlice.view (m : PathMem) (s : PathSlice) : List Key := (m.getD s.arr []).take s.len

/-- `append(s, k)`; `grow n` is the capacity of the new array for a full slice of length `n` (runtime.growslice) -/
def appendKey (grow : Nat → Nat) (m : PathMem) (s : PathSlice) (k : Key) : PathMem × PathSlice :=
  let cells := m.getD s.arr []
  if s.len < cells.length then (m.set s.arr (cells.set s.len k), { s with len := s.len + 1 })
  else (m ++ [cells.take s.len ++ k :: List.replicate (grow s.len - (s.len + 1)) {}], { arr := m.length, len := s.len + 1 })

/-- sort.go:156-159 `ParentInfo` -/
structure SliceInfo where
  parent : V
  path : PathSlice

/-- what a less function finds behind the `*ParentInfo` at this moment -/
def SliceInfo.view (m : PathMem) (p : SliceInfo) : ParentInfo := { parent := p.parent, keyPath := p.path.view m }

/-- sort.go:161-174 `newParentInfo` -/
def newSliceInfo (grow : Nat → Nat) (m : PathMem) (v : V) (p : Option SliceInfo) (k : Key) : PathMem × SliceInfo :=
  match p with
  | none => (m ++ [[k]], { parent := v, path := { arr := m.length, len := 1 } })
  | some p => ((appendKey grow m p.path k).1, { parent := v, path := (appendKey grow m p.path k).2 })

/-- the state of Marshal (Model/Marshal), the arrays, and for every object sorted with a less function the slice and the path it was called with -/
structure PSt where
  m : MSt := {}
  mem : PathMem := []
  log : List (Option PathSlice × List Key) := []

/-- the part of the state that Model/Marshal has -/
def PSt.on (st : PSt) (f : MSt → MSt) : PSt := { st with m := f st.m }

/-- a function that touches nothing else -/
def PSt.lift {α : Type} (st : PSt) (f : MSt → R (MSt × α)) : R (PSt × α) := do
  let (m, a) ← f st.m
  pure ({ st with m := m }, a)

/-- the calls of the less function while an object is sorted -/
def PSt.called (st : PSt) (o : Opt) (p : Option SliceInfo) : PSt :=
  if o.lessFunc.isSome then
    { st with log := st.log ++ [(p.map SliceInfo.path, match p with | some p => p.path.view st.mem | none => [])] }
  else st

abbrev SliceWriter := Option SliceInfo → PSt → R (PSt × Option Err)

/-- marshal.go:259-285 `writeObjectChildren`, see `writeMember` -/
def writeMemberP (o : Opt) (par : Option SliceInfo) (first : Bool) (e : Ent) (wr : SliceWriter) (st : PSt) : R (PSt × Bool) :=
  match e.v with
  | .nilp => .panic
  | _ =>
    if isNullV e.v && o.omitNull then .ok (st, false)
    else do
      let (st, _) ← st.lift fun m => do
        let m := if first then m else m.w [0x2C]
        let m := newLine o m
        let m := m.w [0x22]
        let m ← writeEscaped o e.key m
        pure (m.w (if o.indent.isSome then [0x22, 0x3A, 0x20] else [0x22, 0x3A]), ())
      let (st, _) ← wr par st
      pure (st, true)

/-- sort.go:189-199 `marshalObjectWithLessFunc`, marshal.go:252-257, sort.go:243-247, see `writeMembers` -/
def writeMembersP (o : Opt) (grow : Nat → Nat) (par : Option SliceInfo) : Bool → List (Ent × SliceWriter) → PSt → R PSt
  | _, [], st => .ok st
  | firstWritten, (e, wr) :: ms, st => do
    let r := newSliceInfo grow st.mem e.v par (stringKey e.key)
    let (st, written) ← if o.lessFunc.isSome then writeMemberP o (some r.2) (!firstWritten) e wr { st with mem := r.1 }
      else writeMemberP o none (!firstWritten) e wr st
    writeMembersP o grow par written ms st

mutual
/-- marshal.go:66-84 `marshalToBuffer` with marshalObject (219-250) and marshalArray (294-325), see `marshalTo` -/
def marshalToP (E : Env) (S : SortFn) (o : Opt) (grow : Nat → Nat) : V → SliceWriter
  | .nilp => fun _ _ => .panic
  | .notExist => fun _ st => .ok (st, none)
  | .str s => fun _ st => st.lift (marshalTo E S o (.str s) none)
  | .num src n => fun _ st => st.lift (marshalTo E S o (.num src n) none)
  | .bool b => fun _ st => st.lift (marshalTo E S o (.bool b) none)
  | .null => fun _ st => st.lift (marshalTo E S o .null none)
  | .arr xs => fun par st =>
    if xs.length = 0 then .ok (st.on fun m => m.w [0x5B, 0x5D], none)
    else do
      let st := st.on fun m => ({ m with cnt := m.cnt + 1 } : MSt).w [0x5B]
      let st ← marshalElemsP E S o grow (.arr xs) xs 0 par st
      pure (st.on fun m => (newLine o { m with cnt := m.cnt - 1 }).w [0x5D], none)
  | .obj _ kvs _ => fun par st =>
    if kvs.length = 0 then .ok (st.on fun m => m.w [0x7B, 0x7D], none)
    else do
      let st := st.on fun m => ({ m with cnt := m.cnt + 1 } : MSt).w [0x7B]
      let ms := sortMembers S o (par.map (SliceInfo.view st.mem)) kvs (memberWritersP E S o grow kvs)
      let st ← writeMembersP o grow par false ms (st.called o par)
      pure (st.on fun m => (newLine o { m with cnt := m.cnt - 1 }).w [0x7D], none)
/-- marshal.go:303-316, see `marshalElems` -/
def marshalElemsP (E : Env) (S : SortFn) (o : Opt) (grow : Nat → Nat) (v : V) : List V → Nat → Option SliceInfo → PSt → R PSt
  | [], _, _, st => .ok st
  | x :: xs, i, par, st => do
    let st := st.on fun m => newLine o (if i > 0 then m.w [0x2C] else m)
    let r := newSliceInfo grow st.mem v par (intKey i)
    let (st, _) ← if o.lessFunc.isSome then marshalToP E S o grow x (some r.2) { st with mem := r.1 } else marshalToP E S o grow x none st
    marshalElemsP E S o grow v xs (i + 1) par st
/-- see `memberWriters` -/
def memberWritersP (E : Env) (S : SortFn) (o : Opt) (grow : Nat → Nat) : List Ent → List (Ent × SliceWriter)
  | [] => []
  | ⟨k, i, v⟩ :: es => (⟨k, i, v⟩, marshalToP E S o grow v) :: memberWritersP E S o grow es
end

/-- marshal.go:38-53 `Marshal`, with the log of the calls of the less function and the arrays as they are in the end -/
def marshalP (E : Env) (S : SortFn) (d : Opt) (grow : Nat → Nat) (v : V) (opts : List MOpt) : R ((Bytes × Option Err) × PSt) :=
  match v with
  | .nilp => .panic
  | .notExist => .ok (([], some .valueUninitialized), {})
  | v => do
    let (st, e) ← marshalToP E S (combineOptions d opts) grow v none {}
    match e with
    | some e => pure (([], some e), st)
    | none => pure ((st.m.buf, none), st)

end JV
