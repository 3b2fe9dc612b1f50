import Verif.Model.Channel
/-! Specification vocabulary for C37. -/
namespace Spec
open JV

/-- What the caller of IterArray or IterObjects can rely on, for a channel with room for all children, at any point of any interleaving:
* the receiver has got the children in order, each at most once, and all of them once it has seen the end;
* the sending goroutine, unless it is done, can make its next step without any receiver;
* it makes at most as many steps as there are children, and one for closing;
* unless the receiver is through, sender or receiver can go on: there is no deadlock. -/
def Delivers {α : Type} (start : Chan α) (l : List α) : Prop :=
  ∀ n s, Runs start n s →
    (∃ rest, s.got ++ rest = l) ∧ (s.ended = true → s.got = l) ∧
    (s.closed = false → ∃ t, Sends s t) ∧ n ≤ l.length + 1 ∧
    (s.ended = false → (∃ t, Sends s t) ∨ ∃ t, Receives s t)

end Spec
