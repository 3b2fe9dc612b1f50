import Verif.Spec.Alike
import Verif.Spec.Marshal
import Verif.Model.Base64
import Verif.Model.Describe
/-!
Values that no read can tell apart.
-/
namespace Spec
open JV

/-- one and the same value without parts -/
def IdenticalLeaf (v w : V) : Prop := IsScalar v ∧ v = w

/-- The same strings, booleans, nulls and numbers (text, sign, class and all conversions) at the same places; only the order of members, their numbering
and the index of lower-cased keys may differ. -/
def Identical (v w : V) : Prop := Alike IdenticalLeaf v w

/-- a number is the one Unmarshal makes of its text -/
def Canon (E : Env) : V → Prop
  | .num src n => unmarshal E src = .ok (.num src n)
  | _ => True

/-- a string, or an object with keys, in valid UTF-8; or anything else -/
def Utf8Node : V → Prop
  | .str s => ValidUTF8 s
  | .obj _ kvs _ => ∀ e ∈ kvs, ValidUTF8 e.key
  | _ => True

/-- no two keys of an object become the same in lower case -/
def LowUnique (E : Env) : V → Prop
  | .obj _ kvs _ => ∀ k k', k ∈ kvs.map Ent.key → k' ∈ kvs.map Ent.key → E.toLower k = E.toLower k' → k = k'
  | _ => True

/-- Every Get (Caseless, if `cl`) and typed getter on `v` and `w` returns the same: the same error, equal Go values, or *V that are again alike; and so do the methods of the *V. -/
structure ReadAlike (E : Env) (cl : Bool) (v w : V) (ps : List Param) : Prop where
  get : ResAlike Identical (getC E cl v ps).2 (getC E cl w ps).2
  getString : getString E cl v ps = getString E cl w ps
  getBytes : getBytes E cl v ps = getBytes E cl w ps
  getBool : getBool E cl v ps = getBool E cl w ps
  getNull : getNull E cl v ps = getNull E cl w ps
  getInt64 : getInt64 E cl v ps = getInt64 E cl w ps
  getUint64 : getUint64 E cl v ps = getUint64 E cl w ps
  getInt32 : getInt32 E cl v ps = getInt32 E cl w ps
  getUint32 : getUint32 E cl v ps = getUint32 E cl w ps
  getFloat64 : getFloat64 E cl v ps = getFloat64 E cl w ps
  getFloat32 : getFloat32 E cl v ps = getFloat32 E cl w ps
  methods : ∀ a b, (getC E cl v ps).2 = .ok a → (getC E cl w ps).2 = .ok b → valueType a = valueType b ∧ len a = len b ∧ bool a = bool b ∧
    int64 E a = int64 E b ∧ uint64 E a = uint64 E b ∧ int32 E a = int32 E b ∧ uint32 E a = uint32 E b ∧ float64 E a = float64 E b ∧ float32 E a = float32 E b ∧
    isFloat a = isFloat b ∧ isInteger a = isInteger b ∧ isNegative a = isNegative b ∧ isPositive a = isPositive b ∧ greaterThanInt64Max a = greaterThanInt64Max b ∧
    bytes a = bytes b ∧ (IsScalar a → describe E a = describe E b)

end Spec
