import Verif.Proofs.PathCells
import Verif.Props.KeyPathSlice
import Verif.Props.Size
import Verif.Proofs.Stable
/-!
C90: what ordering the members of objects with a less function costs.
-/
namespace JV
open Spec

/-- Marshal takes storage for key paths that is linear in the text that it gives. -/
def C90_statement (grow : Nat → Nat) : Prop := ∃ c : Nat, ∀ (E : Env) (S : SortFn) (d : Opt) (v : V) (opts : List MOpt) (b : Bytes) (st : PSt),
  GoodSort S → marshalP E S d grow v opts = .ok ((b, none), st) → cells st.mem ≤ c * (b.length + 1)

theorem marshalP_cells {E : Env} {S : SortFn} {d : Opt} {grow : Nat → Nat} {v : V} {opts : List MOpt} {b : Bytes × Option Err} {st : PSt} {G : Nat} (hS : GoodSort S)
    (H : (combineOptions d opts).lessFunc.isSome = true → 1 ≤ G ∧ ∀ n, 1 ≤ n → n < nesting v → grow n ≤ G ∧ n + 1 ≤ G)
    (h : marshalP E S d grow v opts = .ok (b, st)) : cells st.mem ≤ places v * G := by
  have key : ∀ st e, marshalToP E S (combineOptions d opts) grow v none {} = .ok (st, e) → cells st.mem ≤ places v * G := by
    intro st e hm
    have := marshalToP_takes (E := E) hS H v none {} (by intro p hp; cases hp) (by show 0 + nesting v ≤ nesting v; omega) st e hm
    have h0 : cells (PSt.mem {}) = 0 := rfl
    omega
  unfold marshalP at h
  split at h
  · cases h
  · cases h; exact Nat.zero_le _
  · cases hm : marshalToP E S (combineOptions d opts) grow v none {} with
    | ok q =>
      obtain ⟨s, e⟩ := q
      rw [hm] at h
      cases e <;> (cases h; exact key _ _ hm)
    | err e => rw [hm] at h; cases h
    | panic => rw [hm] at h; cases h
    | diverge => rw [hm] at h; cases h

/-- For each element and each member at most the room that `append` gives to a path as deep as the value. -/
theorem C90_partial (E : Env) (S : SortFn) (d : Opt) (grow : Nat → Nat) (v : V) (opts : List MOpt) (b : Bytes × Option Err) (st : PSt) (G : Nat) (hS : GoodSort S)
    (hG : 1 ≤ G) (hg : ∀ n, 1 ≤ n → n < nesting v → grow n ≤ G ∧ n + 1 ≤ G) (h : marshalP E S d grow v opts = .ok (b, st)) : cells st.mem ≤ places v * G :=
  marshalP_cells hS (fun _ => ⟨hG, hg⟩) h

/-- If `append` doubles the room, at most twice the nesting of the value for each of its elements and members. -/
theorem C90_doubling (E : Env) (S : SortFn) (d : Opt) (grow : Nat → Nat) (v : V) (opts : List MOpt) (b : Bytes × Option Err) (st : PSt) (hS : GoodSort S)
    (hg : AtMostDoubles grow) (h : marshalP E S d grow v opts = .ok (b, st)) : cells st.mem ≤ places v * (2 * nesting v) := by
  by_cases hn : nesting v = 0
  · have : places v = 0 := by cases v <;> first | rfl | (simp only [nesting] at hn; omega)
    have h1 := C90_partial E S d grow v opts b st 1 hS (Nat.le_refl _) (by intro n _ hlt; omega) h
    rw [this] at h1 ⊢
    omega
  · exact C90_partial E S d grow v opts b st _ hS (by omega) (fun n h1 h2 => ⟨by have := hg n h1; omega, by omega⟩) h

/-- Without a less function no key path is made, whatever else the options say of the order. -/
theorem C90_without (E : Env) (S : SortFn) (d : Opt) (grow : Nat → Nat) (v : V) (opts : List MOpt) (b : Bytes × Option Err) (st : PSt) (hS : GoodSort S)
    (hl : (combineOptions d opts).lessFunc = none) (h : marshalP E S d grow v opts = .ok (b, st)) : cells st.mem = 0 := by
  have := marshalP_cells (G := 0) hS (fun hs => by rw [hl] at hs; cases hs) h
  omega

/-- A document that is read and written: at most as many pointers as the square of its length. -/
theorem C90_rewritten (E : Env) (S : SortFn) (d : Opt) (grow : Nat → Nat) (s : Bytes) (v : V) (opts : List MOpt) (b : Bytes × Option Err) (st : PSt) (hS : GoodSort S)
    (hg : AtMostDoubles grow) (hr : unmarshal E s = .ok v) (h : marshalP E S d grow v opts = .ok (b, st)) : cells st.mem ≤ s.length * s.length := by
  have h1 := C90_doubling E S d grow v opts b st hS hg h
  have h2 := C78_value E s v hr
  have h3 := breaks_weight v (her_unmarshal_keys hr) (parsed_hasText hr)
  have h4 := places_breaks v
  have h5 := nesting_weight v
  have h6 : places v * (2 * nesting v) ≤ s.length * s.length := Nat.mul_le_mul (by omega) (by omega)
  omega

/-- A deep array with many elements: `n` nulls, nested `n` deep, are a text of at most `9 * n` bytes, and `n * n` pointers of key paths when it is
written again. There are such `n` above any number, however `append` grows. -/
theorem C90_quadratic (E : Env) (S : SortFn) (grow : Nat → Nat) (less : LessFn) (N : Nat) :
    ∃ n s v b st, N ≤ n ∧ 1 ≤ n ∧ s.length ≤ 9 * n ∧ unmarshal E s = .ok v ∧ marshalP E S emptyOptions grow v [.less (some less)] = .ok ((b, none), st) ∧
      b.length ≤ 9 * n ∧ n * n ≤ cells st.mem := by
  obtain ⟨n, h1, h2, h3⟩ := capAt_full grow N
  obtain ⟨st, e1, e2, e3⟩ := comb_takes (E := E) (S := S) (grow := grow) (o := combineOptions emptyOptions [.less (some less)]) rfl rfl n h2 n none {}
    (by intro p hp; cases hp) (by omega) (by show capAt grow (0 + n) = 0 + n; rw [Nat.zero_add]; exact h3)
  obtain ⟨s, t1, t2⟩ := combJ_text n h2 n
  refine ⟨n, s, comb n n, st.m.buf, st, h1, h2, by omega, ?_, ?_, ?_, ?_⟩
  · rw [← combJ_toV (E := E)]
    exact (unmarshal_iff E _ _).2 ⟨combJ n n, ⟨[], s, [], by simp, (by intro c h; cases h), t1, (by intro c h; cases h)⟩, rfl⟩
  · obtain ⟨k, hk⟩ : ∃ k, n = k + 1 := ⟨n - 1, by omega⟩
    have : ∀ a, ∃ xs, comb a n = .arr xs := fun a => by rw [hk]; exact ⟨_, rfl⟩
    obtain ⟨xs, hx⟩ := this n
    rw [hx] at e1 ⊢
    simp only [marshalP, e1]
    rfl
  · have : (PSt.m {}).buf.length = 0 := rfl
    omega
  · have h0 : cells (PSt.mem {}) = 0 := rfl
    rw [h0] at e2
    have : n * n ≤ n * (parLen none + n + 1) := Nat.mul_le_mul_left n (by omega)
    omega

/-- It is not so, however `append` grows. -/
theorem C90_counterexample (grow : Nat → Nat) : ¬ C90_statement grow := by
  rintro ⟨c, hc⟩
  obtain ⟨n, s, v, b, st, h1, h2, -, -, h3, h4, h5⟩ := C90_quadratic sampleEnv insertionSort grow defaultStringSequence (10 * c + 1)
  have h6 := hc _ _ _ _ _ _ _ insertionSort_good h3
  have h7 : c * (b.length + 1) ≤ c * (10 * n) := Nat.mul_le_mul_left c (by omega)
  have h8 : (10 * c + 1) * n ≤ n * n := Nat.mul_le_mul_right n h1
  have h9 : (10 * c + 1) * n = c * (10 * n) + n := by rw [Nat.add_mul, Nat.one_mul, Nat.mul_comm 10 c, Nat.mul_assoc]
  omega

-- [[[[null,null,null]]]]: a path in an array of one, of two and of four; the paths of the nulls share the one of four
example : (marshalP sampleEnv insertionSort emptyOptions (fun n => 2 * n) (comb 3 3) [.less (some defaultStringSequence)] >>= fun r => .ok (r.1.1, r.2.mem.map List.length)) =
    .ok (asc "[[[[null,null,null]]]]", [1, 2, 4]) := by decide +kernel
-- one level more, and each null gets an array of eight
example : (marshalP sampleEnv insertionSort emptyOptions (fun n => 2 * n) (comb 3 4) [.less (some defaultStringSequence)] >>= fun r => .ok (r.1.1, r.2.mem.map List.length)) =
    .ok (asc "[[[[[null,null,null]]]]]", [1, 2, 4, 8, 8, 8]) := by decide +kernel
example : AtMostDoubles fun n => 2 * n := fun _ _ => Nat.le_refl _
example : places (comb 3 4) = 7 ∧ nesting (comb 3 4) = 5 := by decide +kernel

end JV
