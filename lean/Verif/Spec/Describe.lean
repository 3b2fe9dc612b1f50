import Verif.Spec.Denote
/-!
What String() shows.
-/
namespace Spec
open JV

/-- the parts with a comma and a blank between them -/
def commaed : List Bytes → Bytes
  | [] => []
  | [t] => t
  | t :: u :: ts => t ++ [0x2C, 0x20] ++ commaed (u :: ts)

/-- The text String() gives: the contents of a string, the digits of a number as they were parsed or made, `[a, b]` and `{k: a, l: b}` with the
members in any order. `float` is `strconv.FormatFloat(f, 'g', -1, 64)`. -/
inductive Describes (float : BitVec 64 → Bytes) : V → Bytes → Prop
  | nilp : Describes float .nilp [0x6E, 0x69, 0x6C]
  | notExist : Describes float .notExist []
  | null : Describes float .null [0x6E, 0x75, 0x6C, 0x6C]
  | tru : Describes float (.bool true) [0x74, 0x72, 0x75, 0x65]
  | fls : Describes float (.bool false) [0x66, 0x61, 0x6C, 0x73, 0x65]
  | str (s : Bytes) : Describes float (.str s) s
  | text (src : Bytes) (n : Num) : src ≠ [] → Describes float (.num src n) src
  | special (n : Num) : Describes float (.num [] n) (float n.f64)
  | arr (xs : List V) (ts : List Bytes) : xs.length = ts.length →
      (∀ (i : Nat) x t, xs[i]? = some x → ts[i]? = some t → Describes float x t) → Describes float (.arr xs) (0x5B :: commaed ts ++ [0x5D])
  | obj (n : BitVec 32) (kvs es : List Ent) (low : Option (List (Bytes × List Bytes))) (ts : List Bytes) : List.Perm kvs es → es.length = ts.length →
      (∀ (i : Nat) e t, es[i]? = some e → ts[i]? = some t → Describes float e.v t) →
      Describes float (.obj n kvs low) (0x7B :: commaed ((es.zip ts).map fun p => p.1.key ++ [0x3A, 0x20] ++ p.2) ++ [0x7D])

/-- the same value with the members of its objects in another order, at any depth -/
inductive Shuffled : V → V → Prop
  | refl (v : V) : Shuffled v v
  | arr (xs ys : List V) : xs.length = ys.length → (∀ (i : Nat) x y, xs[i]? = some x → ys[i]? = some y → Shuffled x y) → Shuffled (.arr xs) (.arr ys)
  | obj (n : BitVec 32) (kvs es fs : List Ent) (low : Option (List (Bytes × List Bytes))) : List.Perm kvs es → es.length = fs.length →
      (∀ (i : Nat) e f, es[i]? = some e → fs[i]? = some f → e.key = f.key ∧ e.id = f.id) →
      (∀ (i : Nat) e f, es[i]? = some e → fs[i]? = some f → Shuffled e.v f.v) → Shuffled (.obj n kvs low) (.obj n fs low)

/-- arrays, nested to any depth, of numbers (in range, and not hit by the zero check of C02), booleans and null -/
inductive Listing (E : Env) : V → Prop
  | null : Listing E .null
  | bool (b : Bool) : Listing E (.bool b)
  | num (src : Bytes) (n : Num) : JNum src → InRange E src → (∀ neg ip, JFloat neg ip src → ZerosOK ip) → Listing E (.num src n)
  | arr (xs : List V) : (∀ x ∈ xs, Listing E x) → Listing E (.arr xs)

/-- the words for the kinds of values -/
inductive TypeWord : V → String → Prop
  | notExist : TypeWord .notExist "illegal"
  | str (s) : TypeWord (.str s) "string"
  | num (src n) : TypeWord (.num src n) "number"
  | obj (n kvs low) : TypeWord (.obj n kvs low) "object"
  | arr (xs) : TypeWord (.arr xs) "array"
  | bool (b) : TypeWord (.bool b) "boolean"
  | null : TypeWord .null "null"

end Spec
