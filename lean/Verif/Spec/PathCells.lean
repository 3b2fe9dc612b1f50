import Verif.Model.KeyPathSlice
/-!
What the storage of key paths is measured by.
-/
namespace Spec
open JV

mutual
/-- the elements and members at any depth -/
def places : V → Nat
  | .arr xs => placesL xs
  | .obj _ kvs _ => placesM kvs
  | _ => 0
def placesL : List V → Nat
  | [] => 0
  | v :: vs => places v + 1 + placesL vs
def placesM : List Ent → Nat
  | [] => 0
  | ⟨_, _, v⟩ :: es => places v + 1 + placesM es
end

/-- the pointers that all arrays have room for; memory is not given back during a call, and allocating it takes at least as many steps -/
def cells (m : PathMem) : Nat := (m.map List.length).sum

/-- runtime.growslice: a full slice of pointers gets at most twice the room -/
def AtMostDoubles (grow : Nat → Nat) : Prop := ∀ n, 1 ≤ n → grow n ≤ 2 * n

end Spec
