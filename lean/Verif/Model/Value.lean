import Verif.Model.Basic
/-!
The value type `V` and its constructors.
-/
namespace JV

/-- jsonvalue.go:113-119 `type num struct`. float64 is kept as its bit pattern. -/
structure Num where
  negative : Bool
  floated : Bool
  i64 : BitVec 64
  u64 : BitVec 64
  f64 : BitVec 64
deriving DecidableEq, Repr, Inhabited

mutual
/-- jsonvalue.go:102-133 `*V`: a tree. Only the fields meaningful for the value type are kept.
* `nilp` is a nil `*V`; `notExist` is `&V{}`.
* `num src n`: `src` is `srcByte` (empty for nil).
* `obj incr kvs low`: `incr` is `children.incrID`, `kvs` the map `children.object` — a list with
  distinct keys whose order is the iteration order the runtime picks — and `low` the map
  `children.lowerCaseKeys` (`none` for nil). -/
inductive V where
  | nilp
  | notExist
  | str (s : Bytes)
  | num (src : Bytes) (n : Num)
  | bool (b : Bool)
  | null
  | arr (xs : List V)
  | obj (incr : BitVec 32) (kvs : List Ent) (low : Option (List (Bytes × List Bytes)))
/-- One map entry: key and `childWithProperty` (jsonvalue.go:121-124). -/
inductive Ent where
  | mk (key : Bytes) (id : BitVec 32) (v : V)
end

instance : Inhabited V := ⟨.notExist⟩

namespace Ent
def key : Ent → Bytes | mk k _ _ => k
def id : Ent → BitVec 32 | mk _ i _ => i
def v : Ent → V | mk _ _ v => v
@[simp] theorem key_mk (k i v) : (Ent.mk k i v).key = k := rfl
@[simp] theorem id_mk (k i v) : (Ent.mk k i v).id = i := rfl
@[simp] theorem v_mk (k i v) : (Ent.mk k i v).v = v := rfl
theorem eta (e : Ent) : Ent.mk e.key e.id e.v = e := by cases e; rfl
end Ent

/-- `m[key]` on `map[string]childWithProperty`. -/
def lookup (k : Bytes) : List Ent → Option Ent
  | [] => none
  | e :: es => if e.key = k then some e else lookup k es

/-- `m[key] = e` : replaces the entry with the same key in place, otherwise adds one (where in the
iteration order is irrelevant; the model puts it last). -/
def assign (e : Ent) : List Ent → List Ent
  | [] => [e]
  | x :: xs => if x.key = e.key then e :: xs else x :: assign e xs

/-- `delete(m, key)` -/
def erase (k : Bytes) : List Ent → List Ent
  | [] => []
  | x :: xs => if x.key = k then xs else x :: erase k xs

/-- `math.IsNaN` on the bit pattern: exponent all ones, mantissa non-zero. -/
def isNaN (f : BitVec 64) : Bool := (f &&& 0x7FF0000000000000#64) == 0x7FF0000000000000#64 && (f &&& 0x000FFFFFFFFFFFFF#64) != 0#64
/-- `math.IsInf(f, 1)` -/
def isInfP (f : BitVec 64) : Bool := f == 0x7FF0000000000000#64
/-- `math.IsInf(f, -1)` -/
def isInfN (f : BitVec 64) : Bool := f == 0xFFF0000000000000#64
/-- `f < 0` on float64: sign bit set, not -0, not NaN. -/
def fltNeg (f : BitVec 64) : Bool := f.msb && f != 0x8000000000000000#64 && !isNaN f
/-- `-f` on float64. -/
def fneg (f : BitVec 64) : BitVec 64 := f ^^^ 0x8000000000000000#64
/-- marshal.go:205-213 `isValidFloat` -/
def isValidFloat (f : BitVec 64) : Bool := !isNaN f && !(isInfP f || isInfN f)

/-- new.go:238-243 `newObject` (and NewObject() without arguments). -/
def newObject : V := .obj 0 [] none
/-- new.go:245-248 `newArray`, 173-175 `NewArray`; 232-236 `new` sets the type only -/
def newArray : V := .arr []

/-- decimal digits of a natural number, least significant last -/
def natDigits (n : Nat) : Bytes :=
  if h : n < 10 then [UInt8.ofNat (48 + n)]
  else natDigits (n / 10) ++ [UInt8.ofNat (48 + n % 10)]
termination_by n
decreasing_by omega

/-- `strconv.FormatUint(u, 10)` -/
def fmtUint (u : BitVec 64) : Bytes := natDigits u.toNat
/-- `strconv.FormatInt(i, 10)` -/
def fmtInt (i : BitVec 64) : Bytes := if i.toInt < 0 then 45 :: natDigits i.toInt.natAbs else natDigits i.toInt.natAbs

/-- new.go:43-54 `NewInt64` -/
def newInt64 (E : Env) (i : BitVec 64) : V :=
  .num (fmtInt i) { negative := decide (i.toInt < 0), floated := false, f64 := E.i64ToF64 i, i64 := i, u64 := i }
/-- new.go:59-70 `NewUint64` -/
def newUint64 (E : Env) (u : BitVec 64) : V :=
  .num (fmtUint u) { negative := false, floated := false, f64 := E.u64ToF64 u, i64 := u, u64 := u }

/-- new.go:250-264 `newFloat64f` for a given rendering `fmt` of `strconv.FormatFloat(f, format, prec, bitSize)`.
`floated` is never set. -/
def newFloat64f (E : Env) (fmt : Bytes) (f : BitVec 64) : V :=
  .num (if isValidFloat f then fmt else [])
    { negative := fltNeg f, floated := false, f64 := f, i64 := E.f64ToI64 f, u64 := E.f64ToU64 f }

end JV
