import Verif.Model.CaselessWork
import Verif.Spec.History
/-! Specification vocabulary for C102: a history of calls on one object and the steps they take together. -/
namespace Spec
open JV

/-- one call on an object: the object afterwards and the steps; a nil or NotExist child is refused -/
def ObjOp.runW (E : Env) (n : BitVec 32) (kvs : List Ent) (low : Low) : ObjOp → V × Nat
  | .set k c => if c.uninit then (.obj n kvs low, 0) else setKeyW E n kvs low k c
  | .del k => delKeyW E false n kvs low k
  | .cdel k => delKeyW E true n kvs low k
  | .get k => (.obj n kvs (findKeyW E false kvs low k).1.1, (findKeyW E false kvs low k).2)
  | .cget k => (.obj n kvs (findKeyW E true kvs low k).1.1, (findKeyW E true kvs low k).2)

/-- the calls one after the other, the maps being iterated in any order in between; the number is the steps of all calls -/
inductive ObjRunW (E : Env) : V → List ObjOp → Nat → V → Prop
  | nil (v) : ObjRunW E v [] 0 v
  | cons (n kvs low op ops s w) : ObjRunW E (op.runW E n kvs low).1 ops s w →
      ObjRunW E (.obj n kvs low) (op :: ops) ((op.runW E n kvs low).2 + s) w
  | reorder (v v' ops s w) : Reorder v v' → ObjRunW E v' ops s w → ObjRunW E v ops s w

/-- how many members an object has -/
def memberCount : V → Nat
  | .obj _ kvs _ => kvs.length
  | _ => 0

end Spec
