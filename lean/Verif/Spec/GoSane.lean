import Verif.Spec.GoPlain
/-!
The Go values on which Import is shown to return a usable value or an error.
-/
namespace Spec
open JV

/-- no composite value, no byte slice, no marshaler -/
def simple : GoVal → Bool
  | .invalid => true
  | .bool _ => true
  | .int _ => true
  | .uint _ => true
  | .flt _ _ => true
  | .str _ => true
  | .nilPtr _ => true
  | _ => false

mutual
/-- `a`: at the top or in an array, where a nil is not left out -/
def SaneV (a : Bool) : GoVal → Prop
  | .nilMarsh => a = false
  | .jv v => (a = true → v ≠ .nilp) ∧ Her KeysNodup v
  | .arr xs => SaneL xs
  | .slice xs => SaneL xs
  | .map kvs => SaneP kvs
  | .ptr x => SaneV a x
  | .iface x => SaneV a x
  | .struct fs => SaneFs fs
  | .invalid => True
  | .bool _ => True
  | .int _ => True
  | .uint _ => True
  | .flt _ _ => True
  | .str _ => True
  | .bytes _ _ => True
  | .nilSlice => True
  | .nilMap => True
  | .badMap => True
  | .nilPtr _ => True
  | .marsh _ _ => True
  | .text _ _ => True
  | .unsupported => True
termination_by structural x => x
def SaneL : List GoVal → Prop
  | [] => True
  | x :: xs => SaneV true x ∧ SaneL xs
termination_by structural xs => xs
def SaneP : List GoPair → Prop
  | [] => True
  | p :: ps => SanePair p ∧ SaneP ps
termination_by structural ps => ps
def SanePair : GoPair → Prop
  | .mk _ x => SaneV false x
termination_by structural p => p
def SaneFs : List GoField → Prop
  | [] => True
  | f :: fs => SaneF f ∧ SaneFs fs
termination_by structural fs => fs
/-- an embedded type is exported (with a name starting with A to Z), or it is a struct, a pointer to one, or a simple type -/
def SaneF : GoField → Prop
  | .mk _ _ false exported x => exported = false ∨ SaneV false x
  | .mk name _ true exported x => (exported = true ∧ upper name = true ∧ SaneV false x) ∨ SaneE x
termination_by structural f => f
def SaneE : GoVal → Prop
  | .struct fs => SaneFs fs
  | .ptr x => SaneE x
  | x => simple x = true
termination_by structural x => x
end

end Spec
