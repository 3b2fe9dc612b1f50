import Verif.Spec.Order
import Verif.Spec.Lenient
/-!
Exactly what a text or a value must look like where the unrestricted property does not hold.
-/
namespace Spec
open JV

/-- a value written as no text at all: a NotExist element, or NaN or an infinity for which the options have no replacement -/
inductive Hole (E : Env) (o : Opt) : V → Prop
  | notExist : Hole E o .notExist
  | num (src n s e) : special src n = some s → Replace E o s (.inr e) → Hole E o (.num src n)

/-- the member is left out -/
def Omitted (o : Opt) (e : Ent) : Prop := o.omitNull = true ∧ e.v = .null

/-- the members left out stand before and after all the others -/
def Tight (o : Opt) (es : List Ent) : Prop :=
  ∃ a b c, es = a ++ b ++ c ∧ (∀ e ∈ a, Omitted o e) ∧ (∀ e ∈ b, ¬ Omitted o e) ∧ (∀ e ∈ c, Omitted o e)

/-- What Marshal can write as JSON: numbers with JSON texts or replacements, no U+000B in strings and keys, no left-out member between two
others, and nothing without a text, except as the only element of an array. -/
inductive JsonOK (E : Env) (o : Opt) (ord : List Step → List Ent → List Ent → Prop) : List Step → V → Prop
  | null (l) : JsonOK E o ord l .null
  | bool (l b) : JsonOK E o ord l (.bool b)
  | str (l s) : 0xB ∉ s → JsonOK E o ord l (.str s)
  | num (l src n) : special src n = none → JNum src → JsonOK E o ord l (.num src n)
  | spec (l src n s j) : special src n = some s → Replace E o s (.inl j) → (∀ t, j = .num t → JNum t) → (∀ d, j = .str d → 0xB ∉ d) → JsonOK E o ord l (.num src n)
  | lone (l x) : Hole E o x → JsonOK E o ord l (.arr [x])
  | arr (l) (xs : List V) : (∀ (i : Nat) x, xs[i]? = some x → JsonOK E o ord (l ++ [.idx i]) x) → JsonOK E o ord l (.arr xs)
  | obj (l n kvs low) (es : List Ent) : es.Perm kvs → ord l kvs es → Tight o es → (∀ e ∈ kvs, ¬ Omitted o e → 0xB ∉ e.key) →
      (∀ e ∈ kvs, ¬ Omitted o e → JsonOK E o ord (l ++ [.key e.key]) e.v) → JsonOK E o ord l (.obj n kvs low)

/-- members in the order in which the map happens to be visited -/
def AsVisited (_ : List Step) (kvs es : List Ent) : Prop := es = kvs

/-- Which JSON number literals the parser takes: an integer in the range of int64 or uint64, or a positive one of 20 digits whose remainder
modulo 2^64 has 20 digits too; a number with fraction or exponent if ParseFloat takes it and no zero of the integer part follows digits that
make a multiple of 2^64. -/
def NumTaken (E : Env) (t : Bytes) : Prop :=
  (∀ neg ip, JInt neg ip t → (-2 ^ 63 ≤ intVal neg ip ∧ intVal neg ip < 2 ^ 64) ∨ (neg = false ∧ ip.length = 20 ∧ 10 ^ 19 ≤ decVal ip % 2 ^ 64)) ∧
  (∀ neg ip, JFloat neg ip t → ZerosOK ip ∧ E.parseFloat t ≠ none)

end Spec
