import Verif.Spec.GoJson
import Verif.Model.Api
/-!
Which parts of Go data Import looks at, in which order, and what happens at each of them. In the words of package reflect: `Value.Interface` panics
on a value that was obtained through an unexported field.
-/
namespace Spec
open JV

/-- how a value was come by -/
inductive Way where
  /-- through exported fields, or not through a field at all -/
  | open
  /-- it is an embedded field of an unexported type -/
  | inner
  /-- it is an element of such a field -/
  | hidden
deriving DecidableEq, Repr

/-- the elements of a value -/
def Way.elem : Way → Way
  | .open => .open
  | _ => .hidden

/-- an embedded field of a struct; the exported fields of an embedded struct are accessible again -/
def Way.embedded (w : Way) (exported : Bool) : Way :=
  match w with
  | .hidden => .hidden
  | _ => if exported then .open else .inner

/-- the name of a field: what the tag says, trimmed, or that of the field -/
def fieldName (E : Env) (name tag : Bytes) : Bytes :=
  if tag = [] ∨ E.trimSpace (tagName tag) = [] then name else E.trimSpace (tagName tag)

/-- a nil pointer, of any type -/
def nilPointer : GoVal → Bool
  | .nilPtr _ => true
  | .nilMarsh => true
  | .jv .nilp => true
  | _ => false

mutual
/-- The parts of a value that have no others in them, in the order they are looked at. -/
def looked (E : Env) (w : Way) : GoVal → List (Way × GoVal)
  | .arr xs => lookedL E w.elem xs
  | .slice xs => lookedL E w.elem xs
  | .map kvs => lookedP E w.elem kvs
  | .iface x => looked E w.elem x
  | .ptr x => looked E w x
  | .struct fs => lookedFs E w fs
  | x => [(w, x)]
termination_by structural x => x
def lookedL (E : Env) (w : Way) : List GoVal → List (Way × GoVal)
  | [] => []
  | x :: xs => looked E w x ++ lookedL E w xs
termination_by structural xs => xs
def lookedP (E : Env) (w : Way) : List GoPair → List (Way × GoVal)
  | [] => []
  | p :: ps => lookedPair E w p ++ lookedP E w ps
termination_by structural ps => ps
def lookedPair (E : Env) (w : Way) : GoPair → List (Way × GoVal)
  | .mk _ x => looked E w x
termination_by structural p => p
def lookedFs (E : Env) (w : Way) : List GoField → List (Way × GoVal)
  | [] => []
  | f :: fs => lookedF E w f ++ lookedFs E w fs
termination_by structural fs => fs
/-- A field named `-` is passed over; so is an embedded nil pointer, and any other field that is not exported or belongs to something hidden. -/
def lookedF (E : Env) (w : Way) : GoField → List (Way × GoVal)
  | .mk name tag true exported x =>
    if fieldName E name tag = [0x2D] ∨ nilPointer x = true then [] else looked E (w.embedded exported) x
  | .mk name tag false exported x =>
    if exported = false ∨ w = .hidden ∨ fieldName E name tag = [0x2D] then [] else looked E .open x
termination_by structural f => f
end

/-- the value inside pointers and interfaces -/
def bare : GoVal → GoVal
  | .ptr x => bare x
  | .iface x => bare x
  | x => x

/-- Import asks reflect for the value itself: a `[]byte`, a `*V`, a json.Marshaler, an encoding.TextMarshaler -/
def needsInterface : GoVal → Bool
  | .bytes false _ => true
  | .jv _ => true
  | .marsh _ _ => true
  | .text _ _ => true
  | .nilMarsh => true
  | _ => false

/-- a panic of reflect -/
def Forbidden (p : Way × GoVal) : Prop := p.1 ≠ .open ∧ needsInterface p.2 = true

/-- nothing can be made of it: a type without a JSON form, a marshaler that returns an error, or one that returns what Unmarshal refuses -/
def Refused (E : Env) (p : Way × GoVal) : Prop :=
  match p with
  | (_, .unsupported) => True
  | (_, .badMap) => True
  | (.open, .text _ none) => True
  | (.open, .marsh _ none) => True
  | (.open, .marsh _ (some b)) => ∀ b' v, goUnmarshal E b ≠ .ok (b', v, none)
  | _ => False

/-- the first part that is forbidden or refused is of the kind `P` -/
def FirstBad (E : Env) (P : Way × GoVal → Prop) (l : List (Way × GoVal)) : Prop :=
  ∃ l1 p l2, l = l1 ++ p :: l2 ∧ (∀ q ∈ l1, ¬ Forbidden q ∧ ¬ Refused E q) ∧ P p

end Spec
