import Verif.Model.GoApi
import Verif.Spec.GoJson
/-!
What the typed calls and NewObject(M) are to give.
-/
namespace Spec
open JV

/-- `GetX(ps...)`, or `Caseless().GetX(ps...)` with `cl`, for the type of `t`, returns `t` and no error. The containers made by `SetObject` and
`SetArray` come back empty. -/
def GotBack (E : Env) (cl : Bool) (v : V) (ps : List Param) : TChild → Prop
  | .str s => getString E cl v ps = .ok (s, none)
  | .bytes b => getBytes E cl v ps = .ok (b, none)
  | .bool b => getBool E cl v ps = .ok (b, none)
  | .int64 i => getInt64 E cl v ps = .ok (i, none)
  | .int32 i => getInt32 E cl v ps = .ok (i, none)
  | .uint64 u => getUint64 E cl v ps = .ok (u, none)
  | .uint32 u => getUint32 E cl v ps = .ok (u, none)
  | .float64 f => getFloat64 E cl v ps = .ok (f, none)
  | .float32 f => getFloat32 E cl v ps = .ok (f, none)
  | .null => getNull E cl v ps = .ok ((), none)
  | .object => ∃ o, getObject E cl v ps = .ok (o, none) ∧ isObject o = .ok true ∧ len o = .ok 0
  | .array => ∃ a, getArray E cl v ps = .ok (a, none) ∧ isArray a = .ok true ∧ len a = .ok 0

/-- what encoding/json makes of the argument of a typed call; `up` is `float64(f)` of a float32 -/
def tdoc (up : BitVec 32 → BitVec 64) : TChild → GJ
  | .str s => .str s
  | .bytes b => .b64 b
  | .bool b => .bool b
  | .int64 i => .int i.toInt
  | .int32 i => .int i.toInt
  | .uint64 u => .int u.toNat
  | .uint32 u => .int u.toNat
  | .float64 f => .flt false f
  | .float32 f => .flt true (up f)
  | .null => .null
  | .object => .obj []
  | .array => .arr []

/-- what encoding/json makes of a value of a map `M` of a kind NewObject supports, where a float32 counts as the float64 of the same value -/
def mdoc : MVal → Option GJ
  | .nil => some .null
  | .bool b => some (.bool b)
  | .int i => some (.int i.toInt)
  | .uint u => some (.int u.toNat)
  | .flt _ f => some (.flt false f)
  | .str s => some (.str s)
  | .other => none

/-- the members of the object for the supported entries, in the order of the list -/
def mdocs (kvs : List (Bytes × MVal)) : List GMem := kvs.filterMap fun p => (mdoc p.2).map (GMem.mk p.1)

end Spec
