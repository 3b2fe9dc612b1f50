import Verif.Spec.History
/-!
Which `*V` occur in Go data.
-/
namespace Spec
open JV

mutual
/-- all `*V` in the data satisfy `P` -/
def AllJV (P : V → Prop) : GoVal → Prop
  | .jv v => P v
  | .arr xs => AllJVL P xs
  | .slice xs => AllJVL P xs
  | .map kvs => AllJVP P kvs
  | .ptr x => AllJV P x
  | .iface x => AllJV P x
  | .struct fs => AllJVF P fs
  | .invalid => True
  | .bool _ => True
  | .int _ => True
  | .uint _ => True
  | .flt _ _ => True
  | .str _ => True
  | .bytes _ _ => True
  | .nilSlice => True
  | .nilMap => True
  | .badMap => True
  | .nilPtr _ => True
  | .marsh _ _ => True
  | .text _ _ => True
  | .nilMarsh => True
  | .unsupported => True
termination_by structural x => x
def AllJVL (P : V → Prop) : List GoVal → Prop
  | [] => True
  | x :: xs => AllJV P x ∧ AllJVL P xs
termination_by structural xs => xs
def AllJVP (P : V → Prop) : List GoPair → Prop
  | [] => True
  | p :: ps => AllJVpair P p ∧ AllJVP P ps
termination_by structural ps => ps
def AllJVpair (P : V → Prop) : GoPair → Prop
  | .mk _ x => AllJV P x
termination_by structural p => p
def AllJVF (P : V → Prop) : List GoField → Prop
  | [] => True
  | f :: fs => AllJVfield P f ∧ AllJVF P fs
termination_by structural fs => fs
def AllJVfield (P : V → Prop) : GoField → Prop
  | .mk _ _ _ _ x => AllJV P x
termination_by structural f => f
end

end Spec
