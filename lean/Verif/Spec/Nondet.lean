import Verif.Spec.Describe
import Verif.Spec.Marshal
/-!
Which texts Marshal may give: Go visits the members of a map in an order of its own choosing, another one at every call. A value whose maps are
visited in some other order is a `Shuffled` value.
-/
namespace Spec
open JV

/-- the numbers by which an object remembers the order of setting are distinct -/
def IdsNodup : V → Prop
  | .obj _ kvs _ => (kvs.map Ent.id).Nodup
  | _ => True

/-- the members appear in the order in which they are stored -/
def Stored (_ : List Step) (kvs es : List Ent) : Prop := es = kvs

end Spec
