import Verif.Model.Marshal
/-!
What the work of Marshal is measured by.
-/
namespace Spec
open JV

mutual
/-- the members that are null, at any depth -/
def nullMembers : V → Nat
  | .arr xs => nullMembersL xs
  | .obj _ kvs _ => nullMembersM kvs
  | _ => 0
def nullMembersL : List V → Nat
  | [] => 0
  | v :: vs => nullMembers v + nullMembersL vs
def nullMembersM : List Ent → Nat
  | [] => 0
  | ⟨_, _, v⟩ :: es => (if v matches .null then 1 else nullMembers v) + nullMembersM es
end

/-- the members that Marshal looks at but does not write -/
def passedOver (o : Opt) (v : V) : Nat := if o.omitNull then nullMembers v else 0

/-- no option asks for an order of the members -/
def Unordered (o : Opt) : Prop := o.lessFunc = none ∧ o.keySeq = [] ∧ o.bySetSeq = false

end Spec
