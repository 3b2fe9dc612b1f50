import Verif.Spec.GoJson
import Verif.Spec.Marshal
/-!
The Go values on which Import is shown to agree with encoding/json. Everything left out here is a value on which it does not (see the
counterexamples of C40), or one of the three cases noted below as left out for simplicity.
-/
namespace Spec
open JV

/-- left out of a struct by `omitempty`, by encoding/json and by Import (not an array of length 0, which Import keeps) -/
def leftOut : GoVal → Bool
  | .arr _ => false
  | .marsh _ _ => false
  | .text _ _ => false
  | x => goEmpty x

/-- a scalar for which the option `string` does the same; with `o` it must not be zero. Not strings, which Import does not quote. -/
def PlainScalar (F T : FloatText) (o : Bool) : GoVal → Prop
  | .bool b => o = true → b = true
  | .int i => o = true → i ≠ 0
  | .uint u => o = true → u ≠ 0
  | .flt w f => finite f = true ∧ (o = true → goEmpty (.flt w f) = false) ∧ F w f = T w f
  | _ => False

/-- a scalar, or a pointer to one -/
def PlainQuoted (F T : FloatText) (o : Bool) : GoVal → Prop
  | .ptr x => PlainScalar F T o x
  | x => PlainScalar F T o x

/-- what the numbers of a document must be like for Unmarshal to take them (C02) -/
def NumsOK (E : Env) (j : J) : Prop := j.AllNums fun t => InRange E t ∧ ∀ neg ip, JFloat neg ip t → ZerosOK ip

/-- A document `omitempty` does not leave out. (Integers: left out for simplicity, their float64 value depends on the conversion.) -/
def FullDoc (E : Env) : J → Prop
  | .null => False
  | .bool b => b = true
  | .num t => (∃ neg ip, JFloat neg ip t) ∧ E.parseFloat t ≠ some 0#64 ∧ E.parseFloat t ≠ some 0x8000000000000000#64
  | .str s => s ≠ []
  | .arr xs => xs ≠ []
  | .obj ms => ms ≠ []

/-- the name in a tag: not `-`, nothing to trim, and one that encoding/json accepts -/
def TagOK (E : Env) (N : Bytes → Bool) (name tag : Bytes) : Prop :=
  tagName tag ≠ [0x2D] ∧ name ≠ [0x2D] ∧ name ≠ [] ∧ E.trimSpace (tagName tag) = tagName tag ∧ (tagName tag = [] ∨ N (tagName tag) = true)

/-- starts with one of the letters A to Z -/
def upper : Bytes → Bool
  | c :: _ => 0x41 ≤ c && c ≤ 0x5A
  | [] => false

/-- cannot become an object. (Embedded marshalers: left out for simplicity.) -/
def notObject : GoVal → Bool
  | .struct _ => false
  | .map _ => false
  | .jv _ => false
  | .marsh _ _ => false
  | .nilMarsh => false
  | .ptr x => notObject x
  | .iface x => notObject x
  | _ => true

/-- the key of an entry as text -/
def pairKey : GoPair → Bytes
  | .mk k _ => keyText k

mutual
/-- `o`: below a field with `omitempty`; `q`: below a field with `string`. (A json.Marshaler below `omitempty` must return a document that
is not empty; an integer: left out for simplicity.) -/
def PlainV (E : Env) (N : Bytes → Bool) (F T : FloatText) (om : Bool) (o q : Bool) : GoVal → Prop
  | .invalid => o = false
  | .bool b => q = false ∧ (o = true → b = true)
  | .int i => q = false ∧ (o = true → i ≠ 0)
  | .uint u => q = false ∧ (o = true → u ≠ 0)
  | .flt w f => q = false ∧ finite f = true ∧ (o = true → goEmpty (.flt w f) = false)
  | .str s => o = true → s ≠ []
  | .bytes named b => named = false ∧ ∃ c, b = some c ∧ (o = true → c ≠ [])
  | .arr xs => PlainL E N F T om q xs
  | .nilSlice => False
  | .slice xs => (o = true → xs ≠ []) ∧ PlainL E N F T om q xs
  | .nilMap => o = false
  | .map kvs => (o = true → kvs ≠ []) ∧ (kvs.map pairKey).Nodup ∧ PlainP E N F T om o q kvs
  | .badMap => False
  | .nilPtr _ => o = false
  | .ptr x => PlainV E N F T om o q x
  | .iface x => PlainV E N F T om o q x
  | .struct fs => PlainFs E N F T om fs ∧ ((stdCands N om 0 false fs).map Cand.name).Nodup
  | .jv v => v ≠ .notExist ∧ Her (· ≠ .nilp) v ∧ Her KeysNodup v
  | .marsh _ out => ∃ b j, out = some b ∧ JText b j ∧ NumsOK E j ∧ (o = true → FullDoc E j)
  | .text _ out => ∃ s, out = some s ∧ (o = true → s ≠ [])
  | .nilMarsh => False
  | .unsupported => False
termination_by structural x => x
def PlainL (E : Env) (N : Bytes → Bool) (F T : FloatText) (om : Bool) (q : Bool) : List GoVal → Prop
  | [] => True
  | x :: xs => PlainV E N F T om false q x ∧ PlainL E N F T om q xs
termination_by structural xs => xs
def PlainP (E : Env) (N : Bytes → Bool) (F T : FloatText) (om : Bool) (o q : Bool) : List GoPair → Prop
  | [] => True
  | p :: ps => PlainPair E N F T om o q p ∧ PlainP E N F T om o q ps
termination_by structural ps => ps
def PlainPair (E : Env) (N : Bytes → Bool) (F T : FloatText) (om : Bool) (o q : Bool) : GoPair → Prop
  | .mk _ x => PlainV E N F T om o q x
termination_by structural p => p
def PlainFs (E : Env) (N : Bytes → Bool) (F T : FloatText) (om : Bool) : List GoField → Prop
  | [] => True
  | f :: fs => PlainF E N F T om f ∧ PlainFs E N F T om fs
termination_by structural fs => fs
/-- An ordinary field is unexported, or excluded by its tag, or has a plain tag and value. An embedded field is excluded by its tag, or an
embedded struct (or pointer to one) without a name in its tag, or an exported type that cannot become an object, or an unexported
scalar (which is ignored). -/
def PlainF (E : Env) (N : Bytes → Bool) (F T : FloatText) (om : Bool) : GoField → Prop
  | .mk name tag false exported x =>
    exported = false ∨ tag = [0x2D] ∨
    (TagOK E N name tag ∧
      let o := om && tagHas tag omitemptyWord
      let q := tagHas tag stringWord
      (o = true ∧ leftOut x = true) ∨
      ((o = true → goEmpty x = false) ∧ ((q = true ∧ PlainQuoted F T o x) ∨ ((q && quotable x) = false ∧ PlainV E N F T om o q x))))
  | .mk name tag true exported x =>
    tag = [0x2D] ∨
    (TagOK E N name tag ∧
      let o := om && tagHas tag omitemptyWord
      let q := tagHas tag stringWord
      (tagName tag = [] ∧ PlainE E N F T om (om && (tagHas tag omitemptyWord || !upper name)) true x) ∨
      (exported = true ∧ upper name = true ∧ stdEmb N om 0 false true x = none ∧ notObject x = true ∧
        ((o = true ∧ leftOut x = true) ∨
          ((o = true → goEmpty x = false) ∧ ((q = true ∧ PlainQuoted F T o x) ∨ ((q && quotable x) = false ∧ PlainV E N F T om o q x))))) ∨
      (exported = false ∧ upper name = false ∧ quotable x = true ∧ ∀ y, x ≠ .ptr y))
termination_by structural f => f
/-- an embedded struct, a pointer to one, or a nil pointer to one that is left out (`drop`) -/
def PlainE (E : Env) (N : Bytes → Bool) (F T : FloatText) (om : Bool) (drop : Bool) (viaPtr : Bool) : GoVal → Prop
  | .struct fs => PlainFs E N F T om fs
  | .ptr x => viaPtr = true ∧ PlainE E N F T om drop false x
  | .nilPtr t => viaPtr = true ∧ drop = true ∧ ∃ fs, t = .struct fs
  | _ => False
termination_by structural x => x
end

end Spec
