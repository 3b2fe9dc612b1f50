import Verif.Spec.Pool
/-! Specification vocabulary for C101: kinds of values and parts of a parsed document. -/
namespace Spec
open JV

/-- a number, an array or an object -/
def Pooled : NV → Prop
  | .leaf _ w => ∃ src n, w = .num src n
  | _ => True

/-- a string, a number, or an object with a member -/
def Wordy : NV → Prop
  | .leaf _ w => (∃ s, w = .str s) ∨ (∃ src n, w = .num src n)
  | .arr _ _ => False
  | .obj _ _ kvs => kvs ≠ []

/-- `Has v q P`: the document has a value with `P` at position `q` -/
def Has (v : NV) (q : List Nat) (P : NV → Prop) : Prop := ∃ x, At v q x ∧ P x

/-- the value is an element of the arena of the call -/
def InArena (x : NV) : Prop := ∃ i, nodeOf x = .slot i

/-- some value at or below position `p` is an element of the arena -/
def ArenaBelow (v : NV) (p : List Nat) : Prop := ∃ r, p <+: r ∧ Has v r InArena

end Spec
