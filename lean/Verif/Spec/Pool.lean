import Verif.Model.Pool
/-! Specification vocabulary for C36: where the values of a parsed document are and which Go objects hold them. -/
namespace Spec
open JV

/-- the Go object holding a value -/
def nodeOf : NV → Node
  | .leaf n _ => n
  | .arr n _ => n
  | .obj n _ _ => n

/-- `At v p x`: following the positions `p` (array index, or number of the member) from `v` leads to `x` -/
inductive At : NV → List Nat → NV → Prop where
  | here (v : NV) : At v [] v
  | elem {n : Node} {xs : List NV} {i : Nat} {x y : NV} {p : List Nat} (h : xs[i]? = some x) (hp : At x p y) :
      At (.arr n xs) (i :: p) y
  | member {n : Node} {c : BitVec 32} {kvs : List (Bytes × BitVec 32 × NV)} {i : Nat} {k : Bytes} {id : BitVec 32} {x y : NV}
      {p : List Nat} (h : kvs[i]? = some (k, id, x)) (hp : At x p y) : At (.obj n c kvs) (i :: p) y

/-- no two positions of the document are held by the same Go object -/
def NoSharing (v : NV) : Prop := ∀ p q x y, At v p x → At v q y → nodeOf x = nodeOf y → p = q

end Spec
