import Verif.Spec.Path
import Verif.Spec.Lenient
import Verif.Model.Marshal
import Verif.Model.Parse
/-!
What Marshal is supposed to print: layout, contents, order.
-/
namespace Spec
open JV

/-! ### layout -/

mutual
/-- A document as tokens. `leaf` is the text of anything that is not a non-empty container. -/
inductive Doc where
  | leaf (text : Bytes)
  | arr (xs : List Doc)
  | obj (ms : List DMem)
/-- a member: whether a comma comes before it, the text between the quotes of the key, the value -/
inductive DMem where
  | mk (comma : Bool) (key : Bytes) (v : Doc)
end

/-- line break and indentation for nesting depth `d` -/
def nl (ind : Option (Bytes × Bytes)) (d : Nat) : Bytes :=
  match ind with
  | none => []
  | some (pre, i) => 0x0A :: (pre ++ (List.replicate d i).flatten)

mutual
/-- The layout: without indentation everything on one line; with it every element and member on a line of its own, starting with the
prefix and one indent per level; closing brackets one level less; a space after the colon. -/
def Doc.print (ind : Option (Bytes × Bytes)) (d : Nat) : Doc → Bytes
  | .leaf t => t
  | .arr xs => 0x5B :: (printElems ind (d + 1) true xs ++ nl ind d ++ [0x5D])
  | .obj ms => 0x7B :: (printMems ind (d + 1) ms ++ nl ind d ++ [0x7D])
def printElems (ind : Option (Bytes × Bytes)) (d : Nat) (first : Bool) : List Doc → Bytes
  | [] => []
  | x :: xs => (if first then [] else [0x2C]) ++ nl ind d ++ x.print ind d ++ printElems ind d false xs
def printMems (ind : Option (Bytes × Bytes)) (d : Nat) : List DMem → Bytes
  | [] => []
  | ⟨comma, k, v⟩ :: ms =>
    (if comma then [0x2C] else []) ++ nl ind d ++ 0x22 :: (k ++ 0x22 :: 0x3A :: ((if ind.isSome then [0x20] else []) ++ v.print ind d ++ printMems ind d ms))
end

/-- prefix and indent are white space -/
def WsIndent : Option (Bytes × Bytes) → Prop
  | none => True
  | some (p, i) => Ws p ∧ Ws i

/-- prefix and indent are what the parser takes for white space -/
def BlankIndent : Option (Bytes × Bytes) → Prop
  | none => True
  | some (p, i) => Blank p ∧ Blank i

/-! ### strings -/

/-- The code points of a byte string: UTF-8 sequences where there are any, U+FFFD for every byte that starts none. -/
inductive Decodes : Bytes → List Nat → Prop
  | nil : Decodes [] []
  | char (r : Nat) (t : Bytes) (rs : List Nat) : Scalar r → Decodes t rs → Decodes (utf8 r ++ t) (r :: rs)
  | bad (b : UInt8) (t : Bytes) (rs : List Nat) : (∀ r u, Scalar r → b :: t ≠ utf8 r ++ u) → Decodes t rs → Decodes (b :: t) (0xFFFD :: rs)

/-- `d` is `s` with invalid bytes replaced by U+FFFD -/
def Cleaned (s d : Bytes) : Prop := ∃ rs, Decodes s rs ∧ d = rs.flatMap utf8

/-- valid UTF-8 -/
def ValidUTF8 (s : Bytes) : Prop := ∃ rs : List Nat, (∀ r ∈ rs, Scalar r) ∧ s = rs.flatMap utf8

/-- `\\u` and four upper-case hexadecimal digits -/
def uText (u : Nat) : Bytes :=
  let dig (n : Nat) : UInt8 := if n < 10 then UInt8.ofNat (0x30 + n) else UInt8.ofNat (0x37 + n)
  [0x5C, 0x75, dig (u / 4096), dig (u / 256 % 16), dig (u / 16 % 16), dig (u % 16)]

/-- How a code point is written inside a string literal. `utf8On`: OptUTF8; `html`, `slash`: OptEscapeHTML, OptEscapeSlash (on unless turned off).
U+000B is written as it is. -/
def escSpec (utf8On html slash : Bool) (r : Nat) : Bytes :=
  if r = 0x22 then [0x5C, 0x22]
  else if r = 0x5C then [0x5C, 0x5C]
  else if r = 0x2F then if slash then [0x5C, 0x2F] else [0x2F]
  else if r = 0x08 then [0x5C, 0x62]
  else if r = 0x09 then [0x5C, 0x74]
  else if r = 0x0A then [0x5C, 0x6E]
  else if r = 0x0C then [0x5C, 0x66]
  else if r = 0x0D then [0x5C, 0x72]
  else if r = 0x3C ∨ r = 0x3E ∨ r = 0x26 then if html then uText r else [UInt8.ofNat r]
  else if r = 0x7F ∨ (r < 0x20 ∧ r ≠ 0x0B) then uText r
  else if r < 0x80 then [UInt8.ofNat r]
  else if utf8On ∧ r ≠ 0x2028 ∧ r ≠ 0x2029 then utf8 r
  else if r < 0x10000 then uText r
  else uText (0xD800 + (r - 0x10000) / 1024) ++ uText (0xDC00 + (r - 0x10000) % 1024)

/-! ### options -/

/-- the last setting given in a list of options, each option setting `f op` or nothing -/
def lastSet {α : Type} (f : MOpt → Option α) (os : List MOpt) (dflt : α) : α := os.foldl (fun a op => (f op).getD a) dflt

/-- what an option says about OptUTF8, OptEscapeHTML, OptEscapeSlash, OptOmitNull, OptIndent; a plain Opt{} resets the first three and the last -/
def setsUTF8 : MOpt → Option Bool | .utf8 => some true | .opt .. => some false | _ => none
def setsHTML : MOpt → Option Bool | .escapeHTML b => some b | .opt .. => some true | _ => none
def setsSlash : MOpt → Option Bool | .escapeSlash b => some b | .opt .. => some true | _ => none
def setsOmitNull : MOpt → Option Bool | .omitNull b => some b | .opt on _ _ _ _ _ _ _ _ _ => some on | _ => none
def setsIndent : MOpt → Option (Option (Bytes × Bytes)) | .indent p i => some (some (p, i)) | .opt .. => some none | _ => none
/-- NaN: the kind of handling, the string and the float; each is kept until another option sets it -/
def setsNaN : MOpt → Option Nat | .nanFloat _ => some 1 | .nanNull => some 2 | .nanString _ => some 3 | .opt _ _ _ t _ _ _ _ _ _ => some t | _ => none
def setsNaNStr : MOpt → Option Bytes | .nanString s => some s | .opt _ _ _ _ s _ _ _ _ _ => some s | _ => none
def setsNaNFloat : MOpt → Option (BitVec 64) | .nanFloat f => some f | .opt _ _ _ _ _ f _ _ _ _ => some f | _ => none
def setsInf : MOpt → Option Nat | .infFloat _ => some 1 | .infNull => some 2 | .infString _ _ => some 3 | .opt _ _ _ _ _ _ t _ _ _ => some t | _ => none
def setsInfStr : MOpt → Option (Bytes × Bytes) | .infString p n => some (p, n) | .opt _ _ _ _ _ _ _ p n _ => some (p, n) | _ => none
def setsInfFloat : MOpt → Option (BitVec 64) | .infFloat f => some f | .opt _ _ _ _ _ _ _ _ _ f => some f | _ => none

/-- how members are ordered -/
inductive Order where
  | any
  | less (f : LessFn)
  | keys (seq : List Bytes)
  | bySet

/-- key order options; OptKeySequence with an empty list means any order; OptLess(nil) says nothing -/
def setsOrder : MOpt → Option Order
  | .less (some f) => some (.less f)
  | .keySeq [] => some .any
  | .keySeq (s :: seq) => some (.keys (s :: seq))
  | .setSeq => some .bySet
  | .opt _ (some f) _ _ _ _ _ _ _ _ => some (.less f)
  | .opt _ none (s :: seq) _ _ _ _ _ _ _ => some (.keys (s :: seq))
  | .opt _ none [] _ _ _ _ _ _ _ => some .any
  | _ => none

/-- two lists of options that leave the same settings in force -/
structure SameSettings (os os' : List MOpt) : Prop where
  omitNull : lastSet setsOmitNull os false = lastSet setsOmitNull os' false
  order : lastSet setsOrder os .any = lastSet setsOrder os' .any
  nan : lastSet setsNaN os 0 = lastSet setsNaN os' 0
  nanS : lastSet setsNaNStr os [] = lastSet setsNaNStr os' []
  nanF : lastSet setsNaNFloat os 0#64 = lastSet setsNaNFloat os' 0#64
  inf : lastSet setsInf os 0 = lastSet setsInf os' 0
  infS : lastSet setsInfStr os ([], []) = lastSet setsInfStr os' ([], [])
  infF : lastSet setsInfFloat os 0#64 = lastSet setsInfFloat os' 0#64
  utf8 : lastSet setsUTF8 os false = lastSet setsUTF8 os' false
  html : lastSet setsHTML os true = lastSet setsHTML os' true
  slash : lastSet setsSlash os true = lastSet setsSlash os' true
  indent : lastSet setsIndent os none = lastSet setsIndent os' none

/-! ### sorting -/

/-- irreflexive, transitive, and incomparability is transitive -/
structure StrictWeak {α : Type} (lt : α → α → Bool) : Prop where
  irrefl : ∀ a, lt a a = false
  trans : ∀ a b c, lt a b = true → lt b c = true → lt a c = true
  incomp : ∀ a b c, lt a b = false → lt b c = false → lt a c = false

/-- What is assumed about `sort.Sort`: it permutes the elements, and it sorts them if Less, called for two different positions, is a strict
weak order (package sort never compares an element with itself). -/
structure GoodSort (S : SortFn) : Prop where
  perm : ∀ n less, (S n less).Perm (List.range n)
  sorted : ∀ n less lt, StrictWeak lt → (∀ i j, i < n → j < n → i ≠ j → less i j = lt i j) → (S n less).Pairwise fun i j => lt j i = false

/-! ### contents -/

/-- the keys of an object are distinct -/
def KeysNodup : V → Prop
  | .obj _ kvs _ => (kvs.map Ent.key).Nodup
  | _ => True

/-- a value that is not, and nowhere contains, a nil pointer, and is not NotExist; its objects are maps. (NotExist children are allowed.) -/
def Marshalable (v : V) : Prop := Her KeysNodup v ∧ NoNil v ∧ v ≠ .notExist


/-- the key path element for a step -/
def stepKey : Step → Key
  | .key k => { s := k }
  | .idx i => { i := i }

/-- the parent information for the value at location `l` names the path to it (none at the root) -/
def InfoAt (l : List Step) (p : Option ParentInfo) : Prop :=
  (l = [] → p = none) ∧ (l ≠ [] → ∃ w, p = some ⟨w, l.map stepKey⟩)

/-- What `Parent` is for the value at location `l` of `root`: if that value is a member of an object, the value itself; if it is an element of an
array, the array. There is none for the root. -/
def ParentAt (root : V) (l : List Step) (p : Option ParentInfo) : Prop :=
  (l = [] → p = none) ∧ (∀ m k, l = m ++ [.key k] → ∃ q, p = some q ∧ root.at l = some q.parent) ∧
    (∀ m i, l = m ++ [.idx i] → ∃ q, p = some q ∧ root.at m = some q.parent)

inductive Special where
  | nan | infP | infN

/-- the number is one that JSON cannot express -/
def special (src : Bytes) (n : Num) : Option Special :=
  if src ≠ [] then none else if isInfP n.f64 then some .infP else if isInfN n.f64 then some .infN else some .nan

/-- What the options say about a special number: the JSON value to print instead, or an error. `Cleaned` strings are given by their bytes. -/
inductive Replace (E : Env) (o : Opt) : Special → J ⊕ Err → Prop
  | nanFloat : o.nanType = 1 → isValidFloat o.nanToFloat = true → Replace E o .nan (.inl (.num (E.jsonFloat o.nanToFloat)))
  | nanFloatBad : o.nanType = 1 → isValidFloat o.nanToFloat = false → Replace E o .nan (.inr .unsupportedFloatInOpt)
  | nanNull : o.nanType = 2 → Replace E o .nan (.inl .null)
  | nanStr (d) : o.nanType = 3 → Cleaned (if o.nanToString = [] then [0x4E, 0x61, 0x4E] else o.nanToString) d → Replace E o .nan (.inl (.str d))
  | nanErr : o.nanType ≠ 1 → o.nanType ≠ 2 → o.nanType ≠ 3 → Replace E o .nan (.inr .unsupportedFloat)
  | infPFloat : o.infType = 1 → isValidFloat o.infToFloat = true → Replace E o .infP (.inl (.num (E.jsonFloat o.infToFloat)))
  | infNFloat : o.infType = 1 → isValidFloat o.infToFloat = true → Replace E o .infN (.inl (.num (E.jsonFloat (fneg o.infToFloat))))
  | infFloatBad (s) : s ≠ .nan → o.infType = 1 → isValidFloat o.infToFloat = false → Replace E o s (.inr .unsupportedFloatInOpt)
  | infNull (s) : s ≠ .nan → o.infType = 2 → Replace E o s (.inl .null)
  | infPStr (d) : o.infType = 3 → Cleaned (if o.infPos = [] then [0x2B, 0x49, 0x6E, 0x66] else o.infPos) d → Replace E o .infP (.inl (.str d))
  | infNStr (d) : o.infType = 3 → Cleaned (if o.infNeg ≠ [] then o.infNeg else if o.infPos ≠ [] then 0x2D :: trimPlus o.infPos
      else [0x2D, 0x49, 0x6E, 0x66]) d → Replace E o .infN (.inl (.str d))
  | infErr (s) : s ≠ .nan → o.infType ≠ 1 → o.infType ≠ 2 → o.infType ≠ 3 → Replace E o s (.inr .unsupportedFloat)

/-- the members that are printed, out of all members `es` -/
def shown (o : Opt) (es : List Ent) : List Ent :=
  if o.omitNull then es.filter fun e => !isNullV e.v else es

/-- The printed document `j` has the contents of the value at location `l`: `ord l kvs es` says in which order `es` the members `kvs` of
that object appear. -/
inductive Shows (E : Env) (o : Opt) (ord : List Step → List Ent → List Ent → Prop) : List Step → V → J → Prop
  | null (l) : Shows E o ord l .null .null
  | bool (l b) : Shows E o ord l (.bool b) (.bool b)
  | str (l s d) : Cleaned s d → Shows E o ord l (.str s) (.str d)
  | num (l src n) : special src n = none → Shows E o ord l (.num src n) (.num src)
  | spec (l src n s j) : special src n = some s → Replace E o s (.inl j) → Shows E o ord l (.num src n) j
  | arr (l) (xs : List V) (js : List J) : js.length = xs.length →
      (∀ (i : Nat) x j, xs[i]? = some x → js[i]? = some j → Shows E o ord (l ++ [.idx i]) x j) → Shows E o ord l (.arr xs) (.arr js)
  | obj (l n kvs low) (es : List Ent) (ms : List Mem) : es.Perm kvs → ord l kvs es → ms.length = (shown o es).length →
      (∀ (i : Nat) e m, (shown o es)[i]? = some e → ms[i]? = some m → Cleaned e.key m.key) →
      (∀ (i : Nat) e m, (shown o es)[i]? = some e → ms[i]? = some m → Shows E o ord (l ++ [.key e.key]) e.v m.v) →
      Shows E o ord l (.obj n kvs low) (.obj ms)

/-- A node Marshal can print: it exists, its number text satisfies `num` or is a special number for which the options give a replacement,
its string or keys satisfy `str`. -/
def Printable (E : Env) (o : Opt) (num str : Bytes → Prop) : V → Prop
  | .nilp => False
  | .notExist => False
  | .str s => str s
  | .num src n => (special src n = none → num src) ∧
      (∀ s, special src n = some s → ∃ j, Replace E o s (.inl j) ∧ (∀ t, j = .num t → num t) ∧ (∀ d, j = .str d → str d))
  | .obj _ kvs _ => ∀ e ∈ kvs, str e.key
  | _ => True

/-- an object from which no member is left out -/
def NothingOmitted (o : Opt) : V → Prop
  | .obj _ kvs _ => o.omitNull = true → ∀ e ∈ kvs, isNullV e.v = false
  | _ => True

/-- scalars as the constructors make them: NewString, NewBool, NewNull, NewInt64, NewUint64 (and the functions that call them) and NewFloat64
or NewFloat64f with a rendering of finite numbers that is a JSON number -/
inductive ApiScalar (E : Env) : V → Prop
  | str (s) : ApiScalar E (.str s)
  | bool (b) : ApiScalar E (.bool b)
  | null : ApiScalar E .null
  | int (i) : ApiScalar E (newInt64 E i)
  | uint (u) : ApiScalar E (newUint64 E u)
  | float (fmt f) : (isValidFloat f = true → JNum fmt) → ApiScalar E (newFloat64f E fmt f)

/-- a text that Unmarshal takes for a number and nothing else -/
def Reads (E : Env) (t : Bytes) : Prop := ∃ n, unmarshal E t = .ok (.num t n)

mutual
/-- the value without the null members of its objects, at every depth -/
def prune : V → V
  | .arr xs => .arr (pruneL xs)
  | .obj n kvs low => .obj n (pruneM kvs) low
  | v => v
def pruneL : List V → List V
  | [] => []
  | x :: xs => prune x :: pruneL xs
def pruneM : List Ent → List Ent
  | [] => []
  | ⟨k, i, v⟩ :: es => if isNullV v then pruneM es else ⟨k, i, prune v⟩ :: pruneM es
end

/-- the text between the quotes for the string `s` -/
def Escaped (utf8On html slash : Bool) (s t : Bytes) : Prop := ∃ rs, Decodes s rs ∧ t = rs.flatMap (escSpec utf8On html slash)

/-- The tokens of the value at location `l`: `esc` relates strings and keys to what stands between the quotes, `ord l kvs es` says in which
order `es` the members `kvs` of that object appear. Empty containers are single tokens. -/
inductive Lays (o : Opt) (ord : List Step → List Ent → List Ent → Prop) (esc : Bytes → Bytes → Prop) : List Step → V → Doc → Prop
  | null (l) : Lays o ord esc l .null (.leaf [0x6E, 0x75, 0x6C, 0x6C])
  | tru (l) : Lays o ord esc l (.bool true) (.leaf [0x74, 0x72, 0x75, 0x65])
  | fls (l) : Lays o ord esc l (.bool false) (.leaf [0x66, 0x61, 0x6C, 0x73, 0x65])
  | str (l s t) : esc s t → Lays o ord esc l (.str s) (.leaf (0x22 :: t ++ [0x22]))
  | num (l src n t) : (special src n = none → t = src) → Lays o ord esc l (.num src n) (.leaf t)
  | hole (l) : Lays o ord esc l .notExist (.leaf [])
  | emptyArr (l) : Lays o ord esc l (.arr []) (.leaf [0x5B, 0x5D])
  | emptyObj (l n low) : Lays o ord esc l (.obj n [] low) (.leaf [0x7B, 0x7D])
  | arr (l) (xs : List V) (ds : List Doc) : xs ≠ [] → ds.length = xs.length →
      (∀ (i : Nat) x d, xs[i]? = some x → ds[i]? = some d → Lays o ord esc (l ++ [.idx i]) x d) → Lays o ord esc l (.arr xs) (.arr ds)
  | obj (l n kvs low) (es : List Ent) (ms : List DMem) : kvs ≠ [] → es.Perm kvs → ord l kvs es → ms.length = (shown o es).length →
      (∀ (i : Nat) e c k d, (shown o es)[i]? = some e → ms[i]? = some (DMem.mk c k d) → esc e.key k) →
      (∀ (i : Nat) e c k d, (shown o es)[i]? = some e → ms[i]? = some (DMem.mk c k d) → Lays o ord esc (l ++ [.key e.key]) e.v d) →
      Lays o ord esc l (.obj n kvs low) (.obj ms)

/-- any order -/
def AnyOrder (_ : List Step) (_ _ : List Ent) : Prop := True

end Spec
