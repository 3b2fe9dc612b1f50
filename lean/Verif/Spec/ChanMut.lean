import Verif.Model.ChanMut
import Verif.Spec.RangeMut
/-!
What the caller of IterArray and IterObjects expects when it changes the value meanwhile: what it receives are the children of the moment of the
call.
-/
namespace Spec
open JV
variable {α : Type}

/-- At any point of any interleaving: the caller has got the elements `l` in order, each at most once, and all of them once it has seen the end; the
goroutine, unless it is done, can go on without any receiver; it makes at most two steps for each element and two more; and unless the caller is
through, goroutine or caller can go on. -/
def ArrDelivers [HasNil α] (grow : Nat → Nat) (may : ArrIter α → SliceOp α → Prop) (start : ArrIter α) (l : List (α × Nat)) : Prop :=
  ∀ n s, ArrRuns grow may start n s →
    (∃ rest, s.got ++ rest = l) ∧ (s.ended = true → s.got = l) ∧
    (s.closed = false → ∃ t, ArrSends s t) ∧ n ≤ 2 * l.length + 2 ∧
    (s.ended = false → (∃ t, ArrSends s t) ∨ ∃ t, ArrReceives s t)

/-- the caller changes the array whenever it likes -/
def Anytime : ArrIter α → SliceOp α → Prop := fun _ _ => True

/-- the caller changes the array only after it has received something -/
def Later : ArrIter α → SliceOp α → Prop := fun s _ => s.got ≠ []

/-- Having received element `i`, and until it has seen the end of the channel, the caller only appends and changes the elements up to `i`;
after the end it does what it likes -/
def CarefulCaller : ArrIter α → SliceOp α → Prop := fun s o => s.ended = true ∨ (s.got ≠ [] ∧ Calm (s.got.length - 1) o)

/-- the same of IterObjects, where the order is the runtime's choice; and the program goes on -/
def ObjDelivers (E : Env) (may : ObjIterV → MapOp → Prop) (start : ObjIterV) (l : List (Bytes × V)) : Prop :=
  ∀ n s, ObjRuns E may start n s →
    s.dead = false ∧ (∃ rest, (s.got ++ rest).Perm l) ∧ (s.ended = true → s.got.Perm l) ∧
    (s.closed = false → ∃ t, ObjSends s t) ∧ n ≤ l.length + 2 ∧
    (s.ended = false → (∃ t, ObjSends s t) ∨ ∃ t, ObjReceives s t)

/-- the caller changes the object only after the end of the channel -/
def AfterEnd : ObjIterV → MapOp → Prop := fun s _ => s.ended = true

/-- the caller changes the object only after it has received as many members as the object had -/
def AfterLast : ObjIterV → MapOp → Prop := fun s _ => s.cap ≤ s.got.length

/-- the names and values of an object -/
def memberPairs (v : V) : List (Bytes × V) :=
  match v with
  | .obj _ kvs _ => kvs.map fun e => (e.key, e.v)
  | _ => []

end Spec
