import Verif.Spec.Lenient
import Verif.Model.Access
/-!
When a value returned by the library stands for a JSON document. Objects are judged by what `Get` and `Len` return.
-/
namespace Spec
open JV

/-- What a number value must be for the literal `t`. -/
def NumDenotes (E : Env) (t : Bytes) (n : Num) : Prop :=
  (∀ neg ip, JInt neg ip t → n.negative = neg ∧ n.floated = false ∧
    (-2 ^ 63 ≤ intVal neg ip → intVal neg ip < 2 ^ 63 → n.i64.toInt = intVal neg ip) ∧
    (0 ≤ intVal neg ip → intVal neg ip < 2 ^ 64 → (n.u64.toNat : Int) = intVal neg ip)) ∧
  (∀ neg ip, JFloat neg ip t → n.floated = true ∧ E.parseFloat t = some n.f64)

/-- Literals inside the documented range: integers between the smallest int64 and the largest uint64, other numbers as far as
`strconv.ParseFloat` accepts them. -/
def InRange (E : Env) (t : Bytes) : Prop :=
  (∀ neg ip, JInt neg ip t → -2 ^ 63 ≤ intVal neg ip ∧ intVal neg ip < 2 ^ 64) ∧
  (∀ neg ip, JFloat neg ip t → E.parseFloat t ≠ none)

/-- Number tokens as really accepted. -/
def AccNum (E : Env) (t : Bytes) : Prop :=
  (∃ neg ds, t = sign neg ++ ds ∧ IntTok neg ds) ∨ (∃ neg ip fp ep, FloatTok neg ip fp ep t ∧ E.parseFloat t ≠ none)

/-- Fact about the standard library: of the texts of digits, signs, dots and `e`/`E`, `strconv.ParseFloat` accepts only Go's decimal floating
point syntax. (It also accepts `Inf`, `NaN` and hexadecimal floats, which contain other characters.) -/
def FloatSyntax (E : Env) : Prop := ∀ text, (∀ c ∈ text, NumChar c) → E.parseFloat text ≠ none → GoFloat text

/-- The value `v` stands for the document `j`; `N` says what a number must be for its literal. -/
inductive Denotes (E : Env) (N : Bytes → Num → Prop) : J → V → Prop
  | null : Denotes E N .null .null
  | bool (b : Bool) : Denotes E N (.bool b) (.bool b)
  | num (t : Bytes) (n : Num) : N t n → Denotes E N (.num t) (.num t n)
  | str (s : Bytes) : Denotes E N (.str s) (.str s)
  | arr (xs : List J) (vs : List V) : vs.length = xs.length →
      (∀ (i : Nat) x w, xs[i]? = some x → vs[i]? = some w → Denotes E N x w) → Denotes E N (.arr xs) (.arr vs)
  | obj (ms : List Mem) (v : V) (child : Bytes → V) (ks : List Bytes) :
      isObject v = .ok true →
      (∀ k, lastOf k ms = none → get E v [.str k] = .err .notFound) →
      (∀ k j, lastOf k ms = some j → get E v [.str k] = .ok (child k)) →
      (∀ k j, lastOf k ms = some j → Denotes E N j (child k)) →
      ks.Nodup → (∀ k, k ∈ ks ↔ ∃ m ∈ ms, m.key = k) → len v = .ok ks.length →
      Denotes E N (.obj ms) v

end Spec
