import Verif.Model.Value
/-!
Size.
-/
namespace Spec
open JV

mutual
/-- How big a value is: the bytes of all keys, strings and numbers in it, four for each other leaf, and for the brackets, quotes and colons it
takes to write it. No text of the value is shorter, even if commas are left out (which the parser allows). -/
def weight : V → Nat
  | .str s => s.length + 2
  | .num src _ => src.length
  | .bool _ => 4
  | .null => 4
  | .arr xs => weightL xs + 2
  | .obj _ kvs _ => weightM kvs + 2
  | .notExist => 1
  | .nilp => 1
def weightL : List V → Nat
  | [] => 0
  | v :: vs => weight v + weightL vs
def weightM : List Ent → Nat
  | [] => 0
  | ⟨k, _, v⟩ :: es => k.length + 3 + weight v + weightM es
end

/-- a number carries its text (all but NaN and the infinities do) -/
def NumHasText : V → Prop
  | .num src _ => src ≠ []
  | _ => True

end Spec
