import Verif.Model.RangeMut
/-! Specification vocabulary for C103. -/
namespace Spec
open JV

variable {α : Type}

/-- what the growth of a full slice of length `n` must be: room for one more, and at least a quarter more than before.
`runtime.growslice` doubles up to 256 elements and then adds `(n + 768) / 4`, rounded up to a size class. -/
structure GoodGrow (grow : Nat → Nat) : Prop where
  room : ∀ n, n < grow n
  quarter : ∀ n, 5 * n ≤ 4 * grow n

/-- `runtime.growslice` for a slice of pointers, before rounding up to a size class; an empty one gets 32, as in
unmarshal.go:168-171 (elsewhere one) -/
def goGrow (n : Nat) : Nat := if n = 0 then 32 else if n < 256 then 2 * n else n + (n + 768) / 4

/-- how long the array is after a change of an array of length `n` -/
def lenAfter (n : Nat) : SliceOp α → Nat
  | .append _ => n + 1
  | .insert _ _ => n + 1
  | .delete _ => n - 1
  | .set _ _ => n
  | .swap _ _ => n

/-- how many elements lie behind the place of a change -/
def behind (n : Nat) : SliceOp α → Nat
  | .insert pos _ => n - pos
  | .delete pos => n - pos - 1
  | _ => 0

/-- the same for a history, starting with length `n` -/
def behindAll (n : Nat) : List (SliceOp α) → Nat
  | [] => 0
  | o :: os => behind n o + behindAll (lenAfter n o) os

end Spec
