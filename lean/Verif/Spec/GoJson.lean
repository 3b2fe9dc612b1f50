import Verif.Model.Import
import Verif.Spec.Base64
import Verif.Spec.Denote
import Verif.Spec.Path
/-!
What `json.Marshal` of package encoding/json makes of a Go value, written after that package's documentation, as a document tree. This is the
reference Import is compared with. It uses the data type `GoVal` of the model and none of its functions.
-/
namespace Spec
open JV

mutual
/-- The document `json.Marshal` writes, with the contents of a leaf as a value rather than as text. `quoted g`: the scalar `g` inside a string
(option `string`); `b64 b`: the base64 string for `b`; `raw b`: the document a MarshalJSON method returned (an error if that is no JSON);
`val v`: the document of a `*V`. -/
inductive GJ where
  | null
  | bool (b : Bool)
  | int (i : Int)
  | flt (w : Bool) (f : BitVec 64)
  | str (s : Bytes)
  | b64 (b : Bytes)
  | quoted (g : GJ)
  | raw (b : Bytes)
  | val (v : V)
  | arr (xs : List GJ)
  | obj (ms : List GMem)
inductive GMem where
  | mk (key : Bytes) (v : GJ)
end

def GMem.key : GMem → Bytes | mk k _ => k
def GMem.v : GMem → GJ | mk _ v => v

/-- decimal numeral -/
def decimal (i : Int) : Bytes :=
  (if i < 0 then [0x2D] else []) ++ (Nat.toDigits 10 i.natAbs).map fun c => UInt8.ofNat c.toNat

/-- map keys: strings as they are, integers in decimal -/
def keyText : GoKey → Bytes
  | .str s => s
  | .int i => decimal i.toInt
  | .uint u => decimal u.toNat

/-- the part of a tag before the first comma -/
def tagName (tag : Bytes) : Bytes := tag.takeWhile (· ≠ 0x2C)

/-- one of the comma separated parts after the first comma is `opt` -/
def tagHas (tag opt : Bytes) : Bool := decide ((0x2C :: (opt ++ [0x2C])) <:+: tag ++ [0x2C])

def omitemptyWord : Bytes := [0x6F, 0x6D, 0x69, 0x74, 0x65, 0x6D, 0x70, 0x74, 0x79]
def stringWord : Bytes := [0x73, 0x74, 0x72, 0x69, 0x6E, 0x67]

/-- "The omitempty option specifies that the field should be omitted from the encoding if the field has an empty value, defined as false, 0, a
nil pointer, a nil interface value, and any array, slice, map, or string of length zero." -/
def goEmpty : GoVal → Bool
  | .bool b => !b
  | .int i => i = 0
  | .uint u => u = 0
  | .flt _ f => f = 0 || f = 0x8000000000000000#64
  | .str s => s.isEmpty
  | .bytes _ b => (b.getD []).isEmpty
  | .arr xs => xs.isEmpty
  | .nilSlice => true
  | .slice xs => xs.isEmpty
  | .nilMap => true
  | .map kvs => kvs.isEmpty
  | .nilPtr _ => true
  | .nilMarsh => true
  | .jv .nilp => true
  | .iface .invalid => true
  | .marsh e _ => e
  | .text e _ => e
  | _ => false

/-- "It applies only to fields of string, floating point, integer, or boolean types", or pointers to them -/
def quotable : GoVal → Bool
  | .bool _ => true
  | .int _ => true
  | .uint _ => true
  | .flt _ _ => true
  | .str _ => true
  | .ptr x => match x with
    | .bool _ => true
    | .int _ => true
    | .uint _ => true
    | .flt _ _ => true
    | .str _ => true
    | _ => false
  | _ => false

/-- A field that may become a member: its name, how deep it is embedded, whether the name comes from a tag, whether it is behind a nil
embedded pointer, whether `omitempty` leaves it out, and its value (`none`: an error). -/
structure Cand where
  name : Bytes
  depth : Nat
  tagged : Bool
  hidden : Bool
  omitted : Bool
  res : Option GJ

/-- "The Go visibility rules for struct fields are amended for JSON": among the fields with one name those at the least depth count; of these
only the tagged ones if there are any; if exactly one is left it is used, otherwise none. -/
def wins (cs : List Cand) (c : Cand) : Bool :=
  let same := cs.filter fun d => d.name = c.name
  let m := same.filter fun d => d.depth = c.depth
  same.all (fun d => c.depth ≤ d.depth) &&
    (if m.any Cand.tagged then c.tagged && (m.filter Cand.tagged).length = 1 else m.length = 1)

/-- the members for the fields that are used -/
def visible : List Cand → Option (List GMem)
  | [] => some []
  | c :: cs =>
    if c.hidden || c.omitted then visible cs
    else match c.res, visible cs with
      | some g, some ms => some (⟨c.name, g⟩ :: ms)
      | _, _ => none

/-- finite floating point number -/
def finite (f : BitVec 64) : Bool := (f &&& 0x7FF0000000000000#64) ≠ 0x7FF0000000000000#64

mutual
/-- the document for a value, `none` for an error. `N` is `isValidTag`; `om`: `omitempty` counts (encoding/json has no way to turn it off; the
option OptIgnoreJsonOmitempty of Import does). -/
def stdVal (N : Bytes → Bool) (om : Bool) : GoVal → Option GJ
  | .invalid => some .null
  | .bool b => some (.bool b)
  | .int i => some (.int i.toInt)
  | .uint u => some (.int u.toNat)
  | .flt w f => if finite f then some (.flt w f) else none
  | .str s => some (.str s)
  | .bytes _ none => some .null
  | .bytes _ (some b) => some (.b64 b)
  | .arr xs => (stdList N om xs).map .arr
  | .nilSlice => some .null
  | .slice xs => (stdList N om xs).map .arr
  | .nilMap => some .null
  | .map kvs => (stdPairs N om kvs).map .obj
  | .badMap => none
  | .nilPtr _ => some .null
  | .ptr x => stdVal N om x
  | .iface x => stdVal N om x
  | .struct fs =>
    let cs := stdCands N om 0 false fs
    (visible (cs.filter (wins cs))).map .obj
  | .jv .nilp => some .null
  | .jv v => some (.val v)
  | .marsh _ out => out.map .raw
  | .text _ out => out.map .str
  | .nilMarsh => some .null
  | .unsupported => none
termination_by structural x => x
def stdList (N : Bytes → Bool) (om : Bool) : List GoVal → Option (List GJ)
  | [] => some []
  | x :: xs => match stdVal N om x, stdList N om xs with
    | some g, some gs => some (g :: gs)
    | _, _ => none
termination_by structural xs => xs
def stdPairs (N : Bytes → Bool) (om : Bool) : List GoPair → Option (List GMem)
  | [] => some []
  | p :: ps => match stdPair N om p, stdPairs N om ps with
    | some m, some ms => some (m :: ms)
    | _, _ => none
termination_by structural ps => ps
def stdPair (N : Bytes → Bool) (om : Bool) : GoPair → Option GMem
  | .mk k x => (stdVal N om x).map (GMem.mk (keyText k))
termination_by structural p => p
/-- the fields of a struct and of the structs embedded in it, `d` levels down, behind a nil pointer if `hid` -/
def stdCands (N : Bytes → Bool) (om : Bool) (d : Nat) (hid : Bool) : List GoField → List Cand
  | [] => []
  | f :: fs => stdCand N om d hid f ++ stdCands N om d hid fs
termination_by structural fs => fs
def stdCand (N : Bytes → Bool) (om : Bool) (d : Nat) (hid : Bool) : GoField → List Cand
  | .mk name tag anon exported x =>
    let emb := if anon then stdEmb N om d hid true x else none
    if !exported && emb.isNone then []
    else if tag = [0x2D] then []
    else
      let nm := if tagName tag ≠ [] && N (tagName tag) then tagName tag else []
      match emb, nm with
      | some cs, [] => cs
      | _, nm =>
        [{ name := if nm = [] then name else nm, depth := d, tagged := nm ≠ [], hidden := hid,
           omitted := om && tagHas tag omitemptyWord && goEmpty x,
           res := if tagHas tag stringWord && quotable x then (stdVal N om x).map .quoted else stdVal N om x }]
termination_by structural f => f
/-- the fields of an embedded struct or pointer to a struct; `none` if it is something else -/
def stdEmb (N : Bytes → Bool) (om : Bool) (d : Nat) (hid : Bool) (viaPtr : Bool) : GoVal → Option (List Cand)
  | .struct fs => some (stdCands N om (d + 1) hid fs)
  | .ptr x => if viaPtr then stdEmb N om d hid false x else none
  | .nilPtr t => if viaPtr then stdEmb N om d true false t else none
  | _ => none
termination_by structural x => x
end

/-- the value of a member -/
def memOf (k : Bytes) : List GMem → Option GJ
  | [] => none
  | ⟨k', g⟩ :: ms => if k' = k then some g else memOf k ms

/-- The value `v` holds the document `g`. Objects are judged by what Get and Len return. `F w f` is the text a number value for the float `f`
has, `T w f` the text encoding/json writes for it inside a string. -/
inductive Holds (E : Env) (F T : FloatText) : GJ → V → Prop
  | null : Holds E F T .null .null
  | bool (b) : Holds E F T (.bool b) (.bool b)
  | int (i : Int) (n : Num) : n.floated = false → n.negative = decide (i < 0) → (i < 2 ^ 63 → n.i64.toInt = i) → (0 ≤ i → (n.u64.toNat : Int) = i) →
      Holds E F T (.int i) (.num (decimal i) n)
  | flt (w f) (n : Num) : n.f64 = f → Holds E F T (.flt w f) (.num (F w f) n)
  | str (s) : Holds E F T (.str s) (.str s)
  | b64 (b t) : Base64Strict b t → Holds E F T (.b64 b) (.str t)
  | qbool (b) : Holds E F T (.quoted (.bool b)) (.str (if b then [0x74, 0x72, 0x75, 0x65] else [0x66, 0x61, 0x6C, 0x73, 0x65]))
  | qint (i : Int) : Holds E F T (.quoted (.int i)) (.str (decimal i))
  | qflt (w f) : Holds E F T (.quoted (.flt w f)) (.str (T w f))
  | qstr (s t) : JStr t s → Holds E F T (.quoted (.str s)) (.str t)
  | raw (b j v) : JText b j → Denotes E (NumDenotes E) j v → Holds E F T (.raw b) v
  | val (v w) : SameObs v w → Holds E F T (.val v) w
  | arr (xs : List GJ) (vs : List V) : vs.length = xs.length →
      (∀ (i : Nat) x w, xs[i]? = some x → vs[i]? = some w → Holds E F T x w) → Holds E F T (.arr xs) (.arr vs)
  | obj (ms : List GMem) (v : V) (child : Bytes → V) :
      isObject v = .ok true → (ms.map GMem.key).Nodup → len v = .ok ms.length →
      (∀ k, memOf k ms = none → get E v [.str k] = .err .notFound) →
      (∀ k g, memOf k ms = some g → get E v [.str k] = .ok (child k)) →
      (∀ k g, memOf k ms = some g → Holds E F T g (child k)) →
      Holds E F T (.obj ms) v

end Spec
