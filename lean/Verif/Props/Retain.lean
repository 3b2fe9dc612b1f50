import Verif.Proofs.Retain
/-!
C98: what an array keeps of the elements that were removed from it.
-/
namespace JV
open Spec
variable {α : Type}

/-- an array as `children.arr == nil` begins -/
def noArray : ArrV α := { mem := [[]], arr := 0, len := 0 }

theorem noArray_wf : WFArr (noArray : ArrV α) := ⟨[], rfl, Nat.le_refl _⟩

instance retainNil : HasNil (Option Nat) := ⟨none⟩

/-- C98 as stated. False: see `C98_counterexample`. -/
def C98_statement : Prop :=
  ∀ (grow : Nat → Nat) (os : List (SliceOp (Option Nat))) (b : ArrV (Option Nat)), noArray.ops grow os = .ok b → ∀ p ∈ b.cells, p = none ∨ p ∈ b.view

/-- **C98 fails**: two elements are appended, and the first one is deleted, twice. The array is empty and still holds the second one. -/
theorem C98_counterexample : ¬ C98_statement := by
  intro h
  have := h (fun _ => 32) [.append (some 1), .append (some 2), .delete 0, .delete 0]
    { mem := [[], [none, some 2] ++ List.replicate 30 none], arr := 1, len := 0 } (by rfl) (some 2) (by decide)
  revert this
  decide

/-- **C98, exactly**: after any program the elements are those of the list operations, and the pointers kept behind them are those of `LeavesAll`;
the backing array holds nothing else. -/
theorem C98_exact [HasNil α] (grow : Nat → Nat) (a b : ArrV α) (os : List (SliceOp α)) (h : WFArr a) (he : a.ops grow os = .ok b) :
    WFArr b ∧ listOps os a.view = .ok b.view ∧ LeavesAll HasNil.nilv os a.view (spare a) b.view (spare b) ∧ ∀ p, p ∈ b.cells ↔ p ∈ b.view ∨ p ∈ spare b := by
  obtain ⟨h1, h2⟩ := ops_spare grow os h he
  refine ⟨h1, ?_, h2, fun p => by rw [cells_split b, List.mem_append]⟩
  rcases tracks_ops grow os h with ⟨c, e1, e2, -⟩ | ⟨e1, -⟩
  · rw [e1] at he; cases he; exact e2
  · rw [e1] at he; cases he

/-- **C98 for one deletion**: the element that a deletion removes is kept afterwards exactly if it is an element in another place, too, or if an earlier
deletion had left a pointer to it. -/
theorem C98_deleted [HasNil α] (a : ArrV α) (h : WFArr a) (p : Nat) (x : α) (hx : a.view[p]? = some x) (hn : x ≠ HasNil.nilv) :
    ∃ b, a.delete p = .ok b ∧ b.view = a.view.eraseIdx p ∧ (x ∈ b.cells ↔ x ∈ a.view.eraseIdx p ∨ x ∈ spare a) := by
  have hp := (List.getElem?_eq_some_iff.1 hx).1
  obtain ⟨b, h1, h2, h3, h4⟩ := delete_spare h (p := p) (by rw [← view_length h]; exact hp)
  refine ⟨b, h1, h3, ?_⟩
  rw [cells_split b, List.mem_append, h3, h4, List.mem_cons]
  constructor
  · rintro (hm | hm | hm)
    · exact .inl hm
    · split at hm
      · exact absurd hm hn
      · rename_i hl
        left
        have hne : a.view ≠ [] := by intro h0; rw [h0] at hp; simp at hp
        rw [hm, List.getLastD_eq_getLast?, List.getLast?_eq_some_getLast hne]
        have : (a.view.eraseIdx p).getLast? = a.view.getLast? := by
          rw [List.getLast?_eq_getElem?, List.getLast?_eq_getElem?, List.length_eraseIdx, if_pos hp, List.getElem?_eraseIdx, if_neg (by omega)]
          congr 1; omega
        rw [List.getLast?_eq_some_getLast hne] at this
        exact List.mem_of_getLast? this
    · exact .inr hm
  · rintro (hm | hm)
    · exact .inl hm
    · exact .inr (.inr hm)

/-- **C98 for replacements**: the same for an element that Set replaces. -/
theorem C98_replaced [HasNil α] (grow : Nat → Nat) (a b : ArrV α) (h : WFArr a) (p : Nat) (x y : α) (_ : a.view[p]? = some x) (he : a.op grow (.set p y) = .ok b) :
    x ∈ b.cells ↔ x ∈ a.view.set p y ∨ x ∈ spare a := by
  obtain ⟨-, h1, -, h2⟩ := store_spare h he
  rw [cells_split b, List.mem_append, h1, h2]

/-- **C98, partial**: an array from which only the last element was ever deleted keeps nothing but its elements. -/
theorem C98_partial [HasNil α] (grow : Nat → Nat) (os : List (SliceOp α)) (b : ArrV α) (hp : PopsOnly os 0) (he : noArray.ops grow os = .ok b) :
    ∀ p ∈ b.cells, p = HasNil.nilv ∨ p ∈ b.view := by
  intro p hb
  have h1 := (ops_spare grow os noArray_wf he).2
  have h2 := leaves_pops h1 (by simpa [ArrV.view, noArray] using hp) (by simp [spare, noArray, ArrV.cells])
  rw [cells_split b, List.mem_append] at hb
  rcases hb with hb | hb
  · exact .inr hb
  · exact .inl (h2 p hb)

/-- At most one pointer for each deletion is kept. -/
theorem C98_bound [HasNil α] [DecidableEq α] (grow : Nat → Nat) (os : List (SliceOp α)) (b : ArrV α) (he : noArray.ops grow os = .ok b) :
    (spare b).countP (· ≠ HasNil.nilv) ≤ deletions os := by
  have := leaves_bound (ops_spare grow os noArray_wf he).2
  simpa [spare, noArray, ArrV.cells] using this

/-- Appending as many elements as there is room for lets go of everything that was removed. -/
theorem C98_refill [HasNil α] (grow : Nat → Nat) (a : ArrV α) (h : WFArr a) (ys : List α) (hl : (spare a).length ≤ ys.length) :
    ∃ b, a.ops grow (ys.map .append) = .ok b ∧ b.view = a.view ++ ys ∧ ∀ p ∈ b.cells, p = HasNil.nilv ∨ p ∈ b.view := by
  have hlist : ∀ (ys xs : List α), listOps (ys.map .append) xs = .ok (xs ++ ys) := by
    intro ys
    induction ys with
    | nil => intro xs; simp [listOps]
    | cons y ys ih => intro xs; simp only [List.map_cons, listOps, listOp, ih]; simp
  rcases tracks_ops grow (ys.map .append) h with ⟨b, e1, e2, e3, -⟩ | ⟨-, e2⟩
  · rw [hlist] at e2
    refine ⟨b, e1, (R.ok.inj e2).symm, fun p hp => ?_⟩
    have hs := (ops_spare grow _ h e1).2
    rw [cells_split b, List.mem_append] at hp
    rcases hp with hp | hp
    · exact .inr hp
    · rcases leaves_refill ys hs with ⟨l, k1, k2⟩ | ⟨-, k2⟩
      · have := congrArg List.length k1
        rw [List.length_append] at this
        have h0 : (spare b).length = 0 := by omega
        rw [List.length_eq_zero_iff.1 h0] at hp
        cases hp
      · exact .inl (k2 p hp)
  · rw [hlist] at e2; cases e2

theorem front_ops [HasNil α] (grow : Nat → Nat) (z : α) : ∀ (l : List α) (a : ArrV α), WFArr a → a.view = l ++ [z] →
    ∃ b, a.ops grow (List.replicate (l.length + 1) (.delete 0)) = .ok b ∧ b.view = [] ∧ spare b = HasNil.nilv :: (List.replicate l.length z ++ spare a)
  | [], a, h, hv => by
    obtain ⟨b, h1, h2, h3, h4⟩ := delete_spare h (p := 0) (by rw [← view_length h, hv]; simp)
    refine ⟨b, by simp [ArrV.ops, ArrV.op, h1, R.bind_ok], by rw [h3, hv]; rfl, ?_⟩
    rw [h4, hv]; simp
  | x :: l, a, h, hv => by
    obtain ⟨b, h1, h2, h3, h4⟩ := delete_spare h (p := 0) (by rw [← view_length h, hv]; simp)
    obtain ⟨c, k1, k2, k3⟩ := front_ops grow z l b h2 (by rw [h3, hv]; rfl)
    refine ⟨c, ?_, k2, ?_⟩
    · rw [List.length_cons, List.replicate_succ, ArrV.ops, ArrV.op, h1]; exact k1
    · rw [k3, h4, hv, if_neg (by simp), List.length_cons, List.replicate_succ']
      have : (x :: (l ++ [z])).getLast?.getD HasNil.nilv = z := by rw [← List.cons_append, List.getLast?_append]; simp
      simp [List.getLastD_eq_getLast?, this]

/-- An array of two or more that is emptied from the front (a queue) keeps its last element and nothing else. -/
theorem C98_front [HasNil α] (grow : Nat → Nat) (a : ArrV α) (h : WFArr a) (x z : α) (l : List α) (hv : a.view = x :: l ++ [z]) (hs : ∀ p ∈ spare a, p = HasNil.nilv) :
    ∃ b, a.ops grow (List.replicate a.view.length (.delete 0)) = .ok b ∧ b.view = [] ∧ z ∈ b.cells ∧ ∀ p ∈ b.cells, p = HasNil.nilv ∨ p = z := by
  obtain ⟨b, h1, h2, h3⟩ := front_ops grow z (x :: l) a h hv
  refine ⟨b, by rw [hv, List.length_append]; exact h1, h2, ?_, ?_⟩
  · rw [cells_split b, h2, h3]; simp
  · intro p hp
    rw [cells_split b, h2, h3, List.nil_append] at hp
    rcases List.mem_cons.1 hp with hp | hp
    · exact .inl hp
    · rcases List.mem_append.1 hp with hp | hp
      · exact .inr (List.mem_replicate.1 hp).2
      · exact .inl (hs p hp)

/-- An array emptied from both ends by turns keeps half of its elements. -/
theorem C98_half [HasNil α] (grow : Nat → Nat) : ∀ (m : Nat) (a : ArrV α), WFArr a → a.view.length = 2 * m →
    ∃ b, a.ops grow (bothEnds m) = .ok b ∧ b.view = [] ∧ (∀ p ∈ spare a, p ∈ spare b) ∧ ∀ p ∈ a.view.drop m, p ∈ b.cells
  | 0, a, h, hv => by
    have h0 : a.view = [] := List.length_eq_zero_iff.1 hv
    exact ⟨a, rfl, h0, fun _ h => h, by simp [h0]⟩
  | m + 1, a, h, hv => by
    have hne : a.view ≠ [] := by intro h0; rw [h0] at hv; simp at hv
    obtain ⟨x, l, hx⟩ := List.exists_cons_of_ne_nil hne
    have hl : l.length = 2 * m + 1 := by rw [hx] at hv; simp at hv; omega
    have hlne : l ≠ [] := by intro h0; rw [h0] at hl; simp at hl
    have hz : l.dropLast ++ [l.getLast hlne] = l := List.dropLast_concat_getLast hlne
    obtain ⟨b, h1, h2, h3, h4⟩ := delete_spare h (p := 0) (by rw [← view_length h, hv]; omega)
    rw [hx] at h3
    simp only [List.eraseIdx_cons_zero] at h3
    rw [if_neg (by omega), hx, List.getLastD_eq_getLast?, List.getLast?_cons, List.getLast?_eq_some_getLast hlne] at h4
    obtain ⟨c, k1, k2, k3, k4⟩ := delete_spare h2 (p := 2 * m) (by rw [← view_length h2, h3, hl]; omega)
    rw [h3, if_pos (by omega)] at k4
    have k3' : c.view = l.dropLast := by
      rw [k3, h3, List.dropLast_eq_take, List.eraseIdx_eq_take_drop_succ, hl, List.drop_of_length_le (by omega)]; simp
    obtain ⟨d, e1, e2, e3, e4⟩ := C98_half grow m c k2 (by rw [k3']; simp [hl])
    refine ⟨d, ?_, e2, ?_, ?_⟩
    · simp only [bothEnds, ArrV.ops, ArrV.op, h1, k1, R.bind_ok]; exact e1
    · intro p hp
      exact e3 p (by rw [k4, h4]; simp [hp])
    · intro p hp
      rw [hx, List.drop_succ_cons, ← hz, List.drop_append] at hp
      rcases List.mem_append.1 hp with hp | hp
      · exact e4 p (by rw [k3']; exact hp)
      · have hp := List.mem_of_mem_drop hp
        rw [List.mem_singleton] at hp
        rw [cells_split d, List.mem_append]
        right
        exact e3 p (by rw [k4, h4, hp]; simp)

/-- The hypotheses are met: an array of four, emptied from both ends, keeps the third and the fourth; one that is only shortened at its end keeps nothing. -/
example : (noArray.ops (fun _ => 4) [.append (some 1), .append (some 2), .append (some 3), .append (some 4), .delete 0, .delete 2, .delete 0, .delete 0] : R (ArrV (Option Nat))) =
    .ok { mem := [[], [none, some 3, none, some 4]], arr := 1, len := 0 } := rfl
example : PopsOnly [.append (some 1), .append (some 2), .delete 1, .insert 0 (some 3), .delete 1, .delete 0] 0 := by simp [PopsOnly]
example : (noArray.ops (fun _ => 4) [.append (some 1), .append (some 2), .delete 1, .insert 0 (some 3), .delete 1, .delete 0] : R (ArrV (Option Nat))) =
    .ok { mem := [[], [none, none, none, none]], arr := 1, len := 0 } := rfl

end JV
