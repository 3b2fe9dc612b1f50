import Verif.Model.Marshal
import Verif.Model.Work
/-!
How much work Marshal does without an option that orders the members of objects. For each function of `Marshal` one that counts.

Counted: every byte appended to the buffer (`append` is taken to be constant, which it is amortised), every byte of a string that is gone through, every
element and every member visited, every turn of the loop in `writeIndent`, the bytes of the text that json.Marshal gives for a float (and that is
then copied). Not counted: combining the options (a table of 128 entries), the texts of errors, the constant work in between.
`depth` counts the calls of marshalToBuffer on the stack.
-/
namespace JV

/-- conv.go:125-134 `escapeStringToBuff`: bytes read and bytes written -/
def escWork (o : Opt) (s : Bytes) : Nat :=
  s.length + match escapeString o.escaper s with
    | .ok b => b.length
    | _ => 0

/-- marshal.go:86-90 `marshalString`, and the quoted writes in 126-131, 157-161, 188-198 -/
def quotedWork (o : Opt) (s : Bytes) : Nat := 2 + escWork o s

/-- marshal.go:244-247, 271-274, 307-310, 321-324 and `writeIndent` (287-292), whose loop makes `cnt` turns whatever the indentation is -/
def lineWork (o : Opt) (cnt : Nat) : Nat :=
  match o.indent with
  | some (pre, ind) => 1 + pre.length + cnt * (1 + ind.length)
  | none => 0

/-- marshal.go:112-140 `marshalNaN` -/
def nanWork (E : Env) (o : Opt) : Nat :=
  if o.nanType = 1 then (if !isValidFloat o.nanToFloat then 0 else 2 * (E.jsonFloat o.nanToFloat).length)
  else if o.nanType = 2 then 4
  else if o.nanType = 3 then (if o.nanToString = [] then 5 else quotedWork o o.nanToString)
  else 0

/-- marshal.go:142-170 `marshalInfP` -/
def infPWork (E : Env) (o : Opt) : Nat :=
  if o.infType = 1 then (if !isValidFloat o.infToFloat then 0 else 2 * (E.jsonFloat o.infToFloat).length)
  else if o.infType = 2 then 4
  else if o.infType = 3 then (if o.infPos = [] then 6 else quotedWork o o.infPos)
  else 0

/-- marshal.go:172-203 `marshalInfN` -/
def infNWork (E : Env) (o : Opt) : Nat :=
  if o.infType = 1 then (if !isValidFloat o.infToFloat then 0 else 2 * (E.jsonFloat (fneg o.infToFloat)).length)
  else if o.infType = 2 then 4
  else if o.infType = 3 then (if o.infNeg = [] ∧ o.infPos = [] then 6 else quotedWork o (infNegString o))
  else 0

/-- marshal.go:96-110 `marshalNumber` -/
def numberWork (E : Env) (o : Opt) (src : Bytes) (n : Num) : Nat :=
  if src.length > 0 then src.length
  else if isInfP n.f64 then infPWork E o
  else if isInfN n.f64 then infNWork E o
  else nanWork E o

mutual
/-- marshal.go:66-84 `marshalToBuffer` with marshalBoolean (92-94), marshalNull (215-217), marshalObject (219-250) and marshalArray (294-325);
`cnt` is `opt.indent.cnt` -/
def marshalWork (E : Env) (o : Opt) : V → Nat → Work
  | .nilp, _ => Work.call {}
  | .notExist, _ => Work.call {}
  | .str s, _ => (Work.tick (quotedWork o s)).call
  | .num src n, _ => (Work.tick (numberWork E o src n)).call
  | .bool b, _ => (Work.tick (formatBool b).length).call
  | .null, _ => (Work.tick 4).call
  | .arr xs, cnt =>
    if xs.length = 0 then (Work.tick 2).call
    else ((Work.tick 2).seq ((elemsWork E o xs 0 (cnt + 1)).seq (.tick (lineWork o cnt)))).call
  | .obj _ kvs _, cnt =>
    if kvs.length = 0 then (Work.tick 2).call
    else ((Work.tick 2).seq ((membersWork E o false kvs (cnt + 1)).seq (.tick (lineWork o cnt)))).call
/-- marshal.go:303-316 the callback -/
def elemsWork (E : Env) (o : Opt) : List V → Nat → Nat → Work
  | [], _, _ => {}
  | x :: xs, i, cnt => (Work.tick (1 + (if i > 0 then 1 else 0) + lineWork o cnt)).seq ((marshalWork E o x cnt).seq (elemsWork E o xs (i + 1) cnt))
/-- marshal.go:252-257 `writeObjectKVInRandomizedSequence` with `writeObjectChildren` (259-285) -/
def membersWork (E : Env) (o : Opt) : Bool → List Ent → Nat → Work
  | _, [], _ => {}
  | firstWritten, ⟨k, _, v⟩ :: es, cnt =>
    if isNullV v && o.omitNull then (Work.tick 1).seq (membersWork E o false es cnt)
    else (Work.tick (1 + (if firstWritten then 1 else 0) + lineWork o cnt + 1 + escWork o k + (if o.indent.isSome then 3 else 2))).seq
      ((marshalWork E o v cnt).seq (membersWork E o true es cnt))
end

end JV
