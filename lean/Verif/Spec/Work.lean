import Verif.Model.Value
/-!
Nesting.
-/
namespace Spec
open JV

mutual
/-- how deep objects and arrays are nested -/
def nesting : V → Nat
  | .arr xs => nestingL xs + 1
  | .obj _ kvs _ => nestingM kvs + 1
  | _ => 0
def nestingL : List V → Nat
  | [] => 0
  | v :: vs => max (nesting v) (nestingL vs)
def nestingM : List Ent → Nat
  | [] => 0
  | ⟨_, _, v⟩ :: es => max (nesting v) (nestingM es)
end

/-- the number of opening brackets in a text (in strings, too) -/
def openings (t : Bytes) : Nat := t.countP fun c => c = 0x5B ∨ c = 0x7B

end Spec
