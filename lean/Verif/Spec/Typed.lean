import Verif.Model.Parse
import Verif.Model.Access
import Verif.Spec.Denote
/-! What the typed getters return. -/
namespace Spec
open JV

/-- the number 0 as `NewInt(0)` makes it -/
def zeroNum (E : Env) : Num := { negative := false, floated := false, i64 := 0, u64 := 0, f64 := E.i64ToF64 0 }

def IsNumOrStr : V → Prop
  | .num _ _ => True
  | .str _ => True
  | _ => False

/-- What a number getter with projection `pr` returns for what Get found. -/
inductive NumResult {α : Type} (E : Env) (pr : Num → α) (zero : α) : R V → α × Option Err → Prop
  | fail (e) : NumResult E pr zero (.err e) (zero, some e)
  | num (src n) : NumResult E pr zero (.ok (.num src n)) (pr n, none)
  | text (s n) : AccNum E (E.trimSpace s) → unmarshal E (E.trimSpace s) = .ok (.num (E.trimSpace s) n) →
      NumResult E pr zero (.ok (.str s)) (pr n, some .typeNotMatch)
  | badText (s) : ¬ AccNum E (E.trimSpace s) → NumResult E pr zero (.ok (.str s)) (pr (zeroNum E), some .parseNumberFromString)
  | other (c) : ¬ IsNumOrStr c → NumResult E pr zero (.ok c) (pr (zeroNum E), some .typeNotMatch)

/-- What `Int()` and the like read from a value. -/
inductive NumValue (E : Env) : V → Num → Prop
  | num (src n) : NumValue E (.num src n) n
  | text (s n) : s ≠ [] → AccNum E (E.trimSpace s) → unmarshal E (E.trimSpace s) = .ok (.num (E.trimSpace s) n) → NumValue E (.str s) n
  | badText (s) : s = [] ∨ ¬ AccNum E (E.trimSpace s) → NumValue E (.str s) (zeroNum E)
  | other (c) : ¬ IsNumOrStr c → NumValue E c (zeroNum E)


/-- GetBool: a string counts as true when it is `true`, a number when it is not ±0, both with ErrTypeNotMatch -/
def boolResult : V → Bool × Option Err
  | .bool b => (b, none)
  | .str s => (decide (s = [0x74, 0x72, 0x75, 0x65]), some .typeNotMatch)
  | .num _ n => (decide (¬ (n.f64 = 0#64 ∨ n.f64 = 0x8000000000000000#64)), some .typeNotMatch)
  | _ => (false, some .typeNotMatch)

def strResult : V → Bytes × Option Err
  | .str s => (s, none)
  | _ => ([], some .typeNotMatch)

def nullResult : V → Unit × Option Err
  | .null => ((), none)
  | _ => ((), some .typeNotMatch)

def objResult : V → V × Option Err
  | .obj n k l => (.obj n k l, none)
  | _ => (.notExist, some .typeNotMatch)

def arrResult : V → V × Option Err
  | .arr xs => (.arr xs, none)
  | _ => (.notExist, some .typeNotMatch)

end Spec
