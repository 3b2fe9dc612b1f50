import Verif.Model.Heap
/-!
What a goroutine knows of the memory, and what a document there looks like.
-/
namespace Spec
open JV

/-- the `V`s whose state is known -/
abbrev Known := Nat → Option Cell

/-- the object has the fields of the node of the tree -/
def LeafOf : Cell → V → Prop
  | .notExist, .notExist => True
  | .str s, .str t => s = t
  | .num s n, .num t k => s = t ∧ n = k
  | .bool b, .bool c => b = c
  | .null, .null => True
  | _, _ => False

mutual
/-- below `p` hangs the document `t`; nothing is said about the lower case indexes -/
inductive Hung (K : Known) : Ptr → V → Prop
  | nil : Hung K none .nilp
  | leaf (a : Nat) (c : Cell) (t : V) (ha : K a = some c) (hc : LeafOf c t) : Hung K (some a) t
  | arr (a : Nat) (ps : List Ptr) (ts : List V) (ha : K a = some (.arr ps)) (h : HungL K ps ts) : Hung K (some a) (.arr ts)
  | obj (a : Nat) (n : BitVec 32) (es : List HEnt) (l l' : Low) (ts : List Ent) (ha : K a = some (.obj n es l)) (h : HungE K es ts) : Hung K (some a) (.obj n ts l')
inductive HungL (K : Known) : List Ptr → List V → Prop
  | nil : HungL K [] []
  | cons (p : Ptr) (ps : List Ptr) (t : V) (ts : List V) (h : Hung K p t) (hs : HungL K ps ts) : HungL K (p :: ps) (t :: ts)
inductive HungE (K : Known) : List HEnt → List Ent → Prop
  | nil : HungE K [] []
  | cons (k : Bytes) (i : BitVec 32) (p : Ptr) (es : List HEnt) (t : V) (ts : List Ent) (h : Hung K p t) (hs : HungE K es ts) :
      HungE K (⟨k, i, p⟩ :: es) (⟨k, i, t⟩ :: ts)
end

mutual
/-- the document without the lower case indexes of its objects, which no call shows -/
def noIndex : V → V
  | .arr xs => .arr (noIndexL xs)
  | .obj n kvs _ => .obj n (noIndexM kvs) none
  | v => v
def noIndexL : List V → List V
  | [] => []
  | v :: vs => noIndex v :: noIndexL vs
def noIndexM : List Ent → List Ent
  | [] => []
  | .mk k i v :: es => .mk k i (noIndex v) :: noIndexM es
end

end Spec
