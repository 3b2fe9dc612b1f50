import Verif.Spec.Ieee
/-!
Decimal numbers with few significant digits.
-/
namespace Spec
open JV

/-- the number can be written with `n` significant digits and an exponent -/
def FewDigits (n : Nat) (q : Rat) : Prop := ∃ (m : Nat) (a : Int), m < 10 ^ n ∧ q.abs = (m : Rat) * (10 : Rat) ^ a

end Spec
