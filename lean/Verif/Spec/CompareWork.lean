import Verif.Spec.Compare
/-!
What the work of comparing is measured by.
-/
namespace Spec
open JV

/-- no exponent in the text is written with a number above `X` -/
def ExpUpTo (X : Nat) (t : Bytes) : Prop :=
  ∀ body e sg d, t = body ++ e :: sg ++ d → (e = 0x65 ∨ e = 0x45) → (sg = [] ∨ sg = [0x2B] ∨ sg = [0x2D]) → Digits d → decVal d ≤ X

/-- a number has a text, with no exponent above `X` -/
def NumExpUpTo (X : Nat) : V → Prop
  | .num src _ => src ≠ [] ∧ ExpUpTo X src
  | _ => True

end Spec
