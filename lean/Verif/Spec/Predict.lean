import Verif.Model.Predict
/-! Specification vocabulary for C35. -/
namespace Spec
open JV

/-- the text starts, after blanks, with an opening bracket or brace -/
def opensContainer : Bytes → Bool
  | [] => false
  | c :: t => if c = 0x20 ∨ c = 0x0D ∨ c = 0x0A ∨ c = 0x09 ∨ c = 0x08 then opensContainer t else c = 0x7B || c = 0x5B

/-- bytes of a text that is not an object or array -/
def bareBytes (b : Bytes) : Nat := if opensContainer b then 0 else b.length

/-- bytes of all texts passed to `Unmarshal` so far that are not objects or arrays -/
def totalBare (p : Proc) : Nat := (p.threads.map fun th => bareBytes th.input).sum

end Spec
