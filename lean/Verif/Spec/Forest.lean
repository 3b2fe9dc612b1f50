import Verif.Spec.Heap
import Verif.Spec.Marshal
import Verif.Model.Iterate
/-!
Programs that store every `*V` in at most one place, next to what the tree model says about them.
-/
namespace Spec
open JV

/-- The pointers are the roots of separate trees: nothing occurs in two places. -/
def Forest (h : Heap) (roots : List (Ptr × V)) : Prop := ∃ F, HangsL h (roots.map Prod.fst) (roots.map Prod.snd) F ∧ F.Nodup

/-- SortArray on a tree: the value afterwards -/
def sortTree (S : SortFn) (less : Option (V → V → Bool)) (v : V) : V × R Unit :=
  match sortArray S v less with
  | .ok w => (w, .ok ())
  | .err e => (v, .err e)
  | .panic => (v, .panic)
  | .diverge => (v, .diverge)

/-- UnmarshalJSON on a tree: the value afterwards -/
def loadTree (E : Env) (b : Bytes) (v : V) : V × R Unit :=
  match unmarshalJSON E v b with
  | .ok (w, none) => (w, .ok ())
  | .ok (w, some e) => (w, .err e)
  | .err e => (v, .err e)
  | .panic => (v, .panic)
  | .diverge => (v, .diverge)

/-- The heap that a program has built, and its roots with the trees that the tree model predicts for them. Calls are made on pointers `q`
to any place `l` below a root. A root that was stored as a child is not a root any more. -/
inductive Tidy (E : Env) : Heap → List (Ptr × V) → Prop
  | start : Tidy E [] []
  | perm (h roots roots') : Tidy E h roots → roots.Perm roots' → Tidy E h roots'
  | drop (h r roots) : Tidy E h (r :: roots) → Tidy E h roots
  | new (h roots v) : Tidy E h roots → Tidy E (hbuild h v).1 (((hbuild h v).2, v) :: roots)
  | get (h p v roots l q w cl ps) : Tidy E h ((p, v) :: roots) → Leads h p l q → v.at l = some w →
    Tidy E (hget E cl h q ps).1 ((p, (v.modify (fun w => resolve E cl w ps) l).1) :: roots)
  | put (h p v c tc roots l q w) (k : Put) (ps m) : Tidy E h ((p, v) :: (c, tc) :: roots) → Leads h p l q → v.at l = some w →
    (k.onTree E w tc ps).2 = .ok m → Tidy E (k.onHeap E h q c ps).1 ((p, (v.modify (fun w => k.onTree E w tc ps) l).1) :: roots)
  | putFails (h p v c tc roots l q w) (k : Put) (ps) : Tidy E h ((p, v) :: (c, tc) :: roots) → Leads h p l q → v.at l = some w →
    (∀ m, (k.onTree E w tc ps).2 ≠ .ok m) → Tidy E (k.onHeap E h q c ps).1 ((p, v) :: (c, tc) :: roots)
  | delete (h p v roots l q w cl ps) : Tidy E h ((p, v) :: roots) → Leads h p l q → v.at l = some w →
    Tidy E (hdeleteAt E cl h q [] ps).1 ((p, (v.modify (fun w => deleteAt E cl w [] ps) l).1) :: roots)
  | copy (h p v roots l q w fuel c) : Tidy E h ((p, v) :: roots) → Leads h p l q → v.at l = some w → (hdeepCopy fuel h q).2 = .ok c →
    Tidy E (hdeepCopy fuel h q).1 ((c, copied w) :: (p, v) :: roots)
  | sort (h p v roots l q w S fuel less) : Tidy E h ((p, v) :: roots) → Leads h p l q → v.at l = some w → GoodSort S →
    (hsortArray S fuel h q less).2 ≠ .diverge → Tidy E (hsortArray S fuel h q less).1 ((p, (v.modify (fun w => sortTree S less w) l).1) :: roots)
  | load (h p v roots l q w b) : Tidy E h ((p, v) :: roots) → Leads h p l q → v.at l = some w →
    Tidy E (hload E h q b).1 ((p, (v.modify (fun w => loadTree E b w) l).1) :: roots)

end Spec
