import Verif.Spec.Heap
import Verif.Spec.Size
/-!
How much memory values take, however many places they are in.
-/
namespace Spec
open JV

/-- how big a value is without its children: `weight`, with one for each pointer to a child -/
def ownWeight : Cell → Nat
  | .notExist => 1
  | .str s => s.length + 2
  | .num src _ => src.length
  | .bool _ => 4
  | .null => 4
  | .arr xs => xs.length + 2
  | .obj _ kvs _ => (kvs.map fun e => e.key.length + 4).sum + 2

/-- the size of all values that exist, each counted once -/
def memory (h : Heap) : Nat := (h.map ownWeight).sum

/-- the calls that a program has made, last one first, what is in memory then and what pointers it holds -/
inductive Calls (E : Env) : List HOp → Heap → List Ptr → Prop
  | start : Calls E [] [] []
  | call (ops : List HOp) (h : Heap) (held : List Ptr) (op : HOp) : Calls E ops h held → (∀ p ∈ op.args, p ∈ held) →
    Calls E (op :: ops) (op.run E h).1 ((match (op.run E h).2 with | .ok p => [p] | _ => []) ++ held)

end Spec
