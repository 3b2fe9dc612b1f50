import Verif.Model.Parse
import Verif.Model.LeftBuf
/-!
The public parsing functions, with their values on error.
-/
namespace JV

/-- `copy(dst, src)` for slices: the destination afterwards -/
def copyBytes (dst src : Bytes) : Bytes := src.take dst.length ++ dst.drop src.length

/-- what the parse loop leaves for its caller: on an error unmarshal.go:14-76 returns `&V{}` and the error -/
def finish {α : Type} (it : R (Bytes × PV)) (ok : Bytes → V → α) (bad : Err → α) : R α :=
  match it with
  | .ok (it, pv) => .ok (ok it (pv.res it))
  | .err e => .ok (bad e)
  | .panic => .panic
  | .diverge => .diverge

/-- jsonvalue.go:238-251 `Unmarshal`: the caller's slice afterwards, the value, the error. The value reads the private copy. The arena
(jsonvalue.go:247,249) is modelled separately. -/
def goUnmarshal (E : Env) (b : Bytes) : R (Bytes × V × Option Err) :=
  if b.length = 0 then .ok (b, .nilp, some .nilParameter)
  else
    let trueB := copyBytes (List.replicate b.length 0) b
    finish (unmarshalWithIterB E trueB) (fun _ v => (b, v, none)) (fun e => (b, .notExist, some e))

/-- jsonvalue.go:271-280 `UnmarshalNoCopy`: the caller's slice afterwards, the value, the error. The code returns with the slice as it is then,
which is `leftB` after an error. -/
def goUnmarshalNoCopy (E : Env) (b : Bytes) : R (Bytes × V × Option Err) :=
  if b.length = 0 then .ok (b, .notExist, some .nilParameter)
  else finish (unmarshalWithIterB E b) (fun it v => (it, v, none)) (fun e => (leftB E b, .notExist, some e))

/-- jsonvalue.go:210-221 `UnmarshalString`: works on a fresh copy of the string -/
def goUnmarshalString (E : Env) (s : Bytes) : R (V × Option Err) := do
  let (_, v, e) ← goUnmarshalNoCopy E s
  pure (v, e)

/-- jsonvalue.go:230-233 `MustUnmarshal` -/
def mustUnmarshal (E : Env) (b : Bytes) : R V := do
  let (_, v, _) ← goUnmarshal E b
  pure v
/-- jsonvalue.go:202-205 `MustUnmarshalString` -/
def mustUnmarshalString (E : Env) (s : Bytes) : R V := do
  let (v, _) ← goUnmarshalString E s
  pure v
/-- jsonvalue.go:260-263 `MustUnmarshalNoCopy` -/
def mustUnmarshalNoCopy (E : Env) (b : Bytes) : R V := do
  let (_, v, _) ← goUnmarshalNoCopy E b
  pure v

/-- marshaler_unmarshaler.go:22-29 `UnmarshalJSON`, 37-44 `UnmarshalBinary` (the same code): the receiver afterwards and the error. A nil
receiver panics at `*v = *res`. -/
def unmarshalJSON (E : Env) (recv : V) (b : Bytes) : R (V × Option Err) := do
  let (_, res, e) ← goUnmarshal E b
  match e with
  | some e => pure (recv, some e)
  | none => match recv, res with
    | .nilp, _ => .panic
    | _, .nilp => .panic
    | _, res => pure (res, none)

end JV
