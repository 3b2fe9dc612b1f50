import Verif.Model.ThreadsWrite
/-! What belongs to a goroutine: the `V` objects that can be reached from the values it was given. -/
namespace Spec
open JV

/-- the pointers in a `V` -/
def pointers : Cell → List Ptr
  | .arr xs => xs
  | .obj _ kvs _ => kvs.map HEnt.v
  | _ => []

/-- reachable from one of the values -/
inductive Reached (h : Heap) (roots : List Ptr) : Nat → Prop where
  | root (a : Nat) (ha : some a ∈ roots) : Reached h roots a
  | child (a b : Nat) (c : Cell) (ha : Reached h roots a) (hc : h[a]? = some c) (hb : some b ∈ pointers c) : Reached h roots b

/-- nil, or a pointer into this part of the memory -/
def Own (F : Nat → Prop) (p : Ptr) : Prop := ∀ a, p = some a → F a

/-- the same of the result of a call that gives a pointer -/
def OwnR (F : Nat → Prop) (r : R Ptr) : Prop := ∀ p, r = .ok p → Own F p

/-- all goroutines are done -/
def Done {α : Type} (w : World α) : Prop := ∀ p ∈ w.threads, ∃ r, p = .ret r

end Spec
