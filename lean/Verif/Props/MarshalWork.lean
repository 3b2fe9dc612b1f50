import Verif.Proofs.MarshalWork
import Verif.Props.Size
/-!
C88: what Marshal costs.
-/
namespace JV
open Spec

/-- Without an option that orders members, Marshal takes time linear in the length of the text it gives and the number of members that it leaves out. -/
def C88_statement : Prop := ∃ c : Nat, ∀ (E : Env) (S : SortFn) (d : Opt) (v : V) (opts : List MOpt) (b : Bytes),
  Unordered (combineOptions d opts) → marshal E S d v opts = .ok (b, none) →
  (marshalWork E (combineOptions d opts) v 0).ops ≤ c * (b.length + passedOver (combineOptions d opts) v + 1)

theorem marshal_paid {E : Env} {S : SortFn} {d : Opt} {v : V} {opts : List MOpt} {b : Bytes} (ho : Unordered (combineOptions d opts)) {c : Nat} (hc : 2 ≤ c)
    (hL : LinePaid (combineOptions d opts) c (nesting v)) (h : marshal E S d v opts = .ok (b, none)) :
    (marshalWork E (combineOptions d opts) v 0).ops ≤ c * b.length + passedOver (combineOptions d opts) v ∧ b.length ≤ (marshalWork E (combineOptions d opts) v 0).ops := by
  have key : ∀ st e, marshalTo E S (combineOptions d opts) v none {} = .ok (st, e) →
      (marshalWork E (combineOptions d opts) v 0).ops ≤ c * st.buf.length + passedOver (combineOptions d opts) v ∧ st.buf.length ≤ (marshalWork E (combineOptions d opts) v 0).ops := by
    intro st e hm
    obtain ⟨-, k, h1, h2, h3⟩ := marshalTo_paid ho hc hL v none {} st e hm (by show 0 + nesting v ≤ nesting v; omega)
    have h1 : st.buf.length = k := by rw [h1]; exact Nat.zero_add k
    rw [h1]
    exact ⟨h2, h3⟩
  unfold marshal at h
  split at h
  · cases h
  · simp at h
  · cases hm : marshalTo E S (combineOptions d opts) v none {} with
    | ok q =>
      obtain ⟨st, e⟩ := q
      rw [hm] at h
      cases e with
      | some e => simp at h
      | none =>
        simp only [R.bind_ok, R.pure_eq, R.ok.injEq, Prod.mk.injEq, and_true] at h
        subst h
        exact key st none hm
    | err e => rw [hm] at h; cases h
    | panic => rw [hm] at h; cases h
    | diverge => rw [hm] at h; cases h

/-- Marshal takes at most two steps for each byte of the text and one for each member left out, unless OptIndent is given an empty indentation;
and no less than one for each byte. -/
theorem C88_partial (E : Env) (S : SortFn) (d : Opt) (v : V) (opts : List MOpt) (b : Bytes) (ho : Unordered (combineOptions d opts))
    (hi : ∀ pre, (combineOptions d opts).indent ≠ some (pre, [])) (h : marshal E S d v opts = .ok (b, none)) :
    (marshalWork E (combineOptions d opts) v 0).ops ≤ 2 * b.length + passedOver (combineOptions d opts) v ∧ b.length ≤ (marshalWork E (combineOptions d opts) v 0).ops :=
  marshal_paid ho (Nat.le_refl 2) (linePaid_ind hi _) h

/-- With an empty indentation the nesting of the value comes in. -/
theorem C88_any (E : Env) (S : SortFn) (d : Opt) (v : V) (opts : List MOpt) (b : Bytes) (ho : Unordered (combineOptions d opts))
    (h : marshal E S d v opts = .ok (b, none)) :
    (marshalWork E (combineOptions d opts) v 0).ops ≤ (nesting v + 2) * b.length + passedOver (combineOptions d opts) v :=
  (marshal_paid ho (by omega) (linePaid_any _ _) h).1

/-- A text that Marshal rewrites on one line: at most thirteen steps for each byte of the text that was read. -/
theorem C88_rewritten (E : Env) (S : SortFn) (s : Bytes) (v : V) (opts : List MOpt) (b : Bytes) (hS : GoodSort S) (hr : unmarshal E s = .ok v)
    (ho : Unordered (combineOptions emptyOptions opts)) (hi : lastSet setsIndent opts none = none) (h : marshal E S emptyOptions v opts = .ok (b, none)) :
    (marshalWork E (combineOptions emptyOptions opts) v 0).ops ≤ 13 * s.length := by
  have h1 := C78_rewritten E S s v opts b hS hr hi h
  have h2 := (C88_partial E S emptyOptions v opts b ho (by intro pre hp; have := (set_indent opts).symm.trans hp; rw [hi] at this; cases this) h).1
  have h3 := C78_value E s v hr
  have h4 := nullMembers_weight v
  have h5 : passedOver (combineOptions emptyOptions opts) v ≤ nullMembers v := by unfold passedOver; split <;> omega
  omega

theorem nestV_toV (E : Env) : ∀ n, toV E (deepJ n) = nestV n
  | 0 => rfl
  | n + 1 => by simp only [deepJ, toV, toVL, nestV_toV E n, nestV]

/-- n + 1 brackets in each other, written with an empty indentation: 4n + 2 bytes, but more than n squared steps. -/
theorem C88_quadratic (E : Env) (S : SortFn) (n : Nat) :
    ∃ v b, unmarshal E (List.replicate (n + 1) 0x5B ++ List.replicate (n + 1) 0x5D) = .ok v ∧ marshal E S emptyOptions v [.indent [] []] = .ok (b, none) ∧
      b.length = 4 * n + 2 ∧ (marshalWork E (combineOptions emptyOptions [.indent [] []]) v 0).ops = n * n + 5 * n + 2 := by
  obtain ⟨v, b, h1, h2, h3⟩ := C78_quadratic E S [.indent [] []] [] [] rfl n
  refine ⟨v, b, h1, h2, by rw [h3]; simp only [List.length_nil]; omega, ?_⟩
  have hu : unmarshal E (List.replicate (n + 1) 0x5B ++ List.replicate (n + 1) 0x5D) = .ok (toV E (deepJ n)) :=
    (unmarshal_iff E _ _).2 ⟨deepJ n, ⟨[], _, [], by simp, (by intro c h; cases h), deepJ_text n, (by intro c h; cases h)⟩, rfl⟩
  rw [h1] at hu
  cases hu
  rw [nestV_toV, nestV_work [] rfl]
  simp only [List.length_nil, Nat.mul_add]
  omega

/-- It is not so with OptIndent(prefix, ""): writeIndent counts up to the depth of each line, even if it writes nothing. -/
theorem C88_counterexample : ¬ C88_statement := by
  rintro ⟨c, hc⟩
  let n := 8 * c + 8
  have ho : Unordered (combineOptions emptyOptions [.indent [] []]) := ⟨rfl, rfl, rfl⟩
  obtain ⟨v, b, -, h1, h2, h0⟩ := C88_quadratic sampleEnv insertionSort n
  have h3 := hc sampleEnv insertionSort emptyOptions v [.indent [] []] b ho h1
  rw [h0] at h3
  have h4 : passedOver (combineOptions emptyOptions [.indent [] []]) v = 0 := rfl
  rw [h4] at h3
  have h5 : c * (b.length + 0 + 1) ≤ c * (4 * n + 3) := Nat.mul_le_mul_left c (by omega)
  have h6 : n * (8 * c + 8) ≤ n * n := Nat.mul_le_mul_left n (by omega)
  have h7 : c * (4 * n + 3) = 4 * (n * c) + 3 * c := by rw [Nat.mul_add, Nat.mul_comm c (4 * n), Nat.mul_assoc]; omega
  have h8 : n * (8 * c + 8) = 8 * (n * c) + 8 * n := by rw [Nat.mul_add, Nat.mul_left_comm]; omega
  have : n = 8 * c + 8 := rfl
  omega

/-- Marshal's calls on the stack: one for each level of nesting, and one more if there is something inside. -/
theorem C88_stack (E : Env) (o : Opt) (v : V) (cnt : Nat) : nesting v ≤ (marshalWork E o v cnt).depth ∧ (marshalWork E o v cnt).depth ≤ nesting v + 1 :=
  ⟨(marshalWork_depth v cnt).1, (marshalWork_depth v cnt).2.1⟩

/-- an object with a member that is left out, and one with a string: 18 steps for 14 bytes -/
example : marshal sampleEnv insertionSort emptyOptions (.obj 2 [⟨asc "n", 1, .null⟩, ⟨asc "s", 2, .str (asc "<")⟩] none) [.omitNull true] = .ok (asc "{\"s\":\"\\u003C\"}", none) ∧
    (marshalWork sampleEnv (combineOptions emptyOptions [.omitNull true]) (.obj 2 [⟨asc "n", 1, .null⟩, ⟨asc "s", 2, .str (asc "<")⟩] none) 0).ops = 18 ∧
    passedOver (combineOptions emptyOptions [.omitNull true]) (.obj 2 [⟨asc "n", 1, .null⟩, ⟨asc "s", 2, .str (asc "<")⟩] none) = 1 := by decide +kernel

end JV
