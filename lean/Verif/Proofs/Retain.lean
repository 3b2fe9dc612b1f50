import Verif.Spec.Retain
import Verif.Proofs.Copies
/-! The cells behind the last element of an array. -/
namespace JV
open Spec
variable {α : Type}

theorem cells_split (a : ArrV α) : a.cells = a.view ++ spare a := (List.take_append_drop _ _).symm

theorem spare_nil_of {a : ArrV α} (h : ¬ a.len < a.cells.length) : spare a = [] := List.drop_eq_nil_of_le (by omega)

theorem append_spare [HasNil α] (grow : Nat → Nat) {a : ArrV α} (h : WFArr a) (x : α) :
    (∃ y, spare a = y :: spare (a.append grow x)) ∨ (spare a = [] ∧ ∃ k, spare (a.append grow x) = List.replicate k HasNil.nilv) := by
  by_cases hc : a.len < a.cells.length
  · left
    obtain ⟨-, -, g3, -⟩ := set_cells h (a.cells.set a.len x) (a.len + 1) (by simp; omega)
    refine ⟨a.cells[a.len], ?_⟩
    rw [spare, List.drop_eq_getElem_cons hc]
    simp only [ArrV.append, if_pos hc, spare]
    rw [g3, List.drop_set_of_lt (by omega)]
  · right
    refine ⟨spare_nil_of hc, grow a.len - (a.len + 1), ?_⟩
    have hv := view_length h
    simp only [ArrV.append, if_neg hc, spare]
    have : (ArrV.mk (a.mem ++ [a.view ++ x :: List.replicate (grow a.len - (a.len + 1)) HasNil.nilv]) a.mem.length (a.len + 1)).cells =
        a.view ++ x :: List.replicate (grow a.len - (a.len + 1)) HasNil.nilv := by simp [ArrV.cells, List.getD]
    rw [this, List.drop_append, hv, show a.len + 1 - a.len = 1 by omega, List.drop_of_length_le (by omega)]
    simp

theorem store_spare {a b : ArrV α} (h : WFArr a) {i : Nat} {x : α} (he : a.store i x = .ok b) : WFArr b ∧ spare b = spare a ∧ b.len = a.len ∧ b.view = a.view.set i x := by
  by_cases hi : i < a.len
  · obtain ⟨c, g1, g2, g3, g4, g5, g6, g7⟩ := store_spec h i x hi
    rw [g1] at he; cases he
    exact ⟨g2, by rw [spare, g7, g5, List.drop_set_of_lt (by omega)]; rfl, g5, g4⟩
  · simp [ArrV.store, hi] at he

theorem copy_spare {a : ArrV α} (h : WFArr a) (d s : Nat) (hd : d ≤ a.len) (hs : s ≤ a.len) :
    ∃ b, a.copy d s = .ok b ∧ WFArr b ∧ b.len = a.len ∧ b.view = copyAt a.view d (a.view.drop s) ∧ spare b = spare a := by
  obtain ⟨b, h1, h2, h3⟩ := copy_cells h d s hd hs
  obtain ⟨c, g1, g2, g3, g4, g5⟩ := copy_spec h d s hd hs
  rw [h1] at g1; cases g1
  refine ⟨b, h1, g2, g5, g4, ?_⟩
  have hl : (copyAt a.view d (a.view.drop s)).length = a.len := by rw [copyAt_length _ _ _ (by rw [view_length h]; exact hd), view_length h]
  rw [spare, h3, g5, List.drop_append, hl, Nat.sub_self, List.drop_of_length_le (by omega)]
  rfl

theorem delete_spare [HasNil α] {a : ArrV α} (h : WFArr a) {p : Nat} (hp : p < a.len) :
    ∃ b, a.delete p = .ok b ∧ WFArr b ∧ b.view = a.view.eraseIdx p ∧
      spare b = (if p + 1 = a.view.length then HasNil.nilv else a.view.getLastD HasNil.nilv) :: spare a := by
  have hv := view_length h
  obtain ⟨b, g1, g2, g3, g4, g5, -⟩ := store_spec h p HasNil.nilv hp
  have gs := (store_spare h g1).2.1
  obtain ⟨c, k1, k2, k3, k4, k5⟩ := copy_spare g2 p (p + 1) (by omega) (by omega)
  have hc := wf_cells k2
  have hw : WFArr { c with len := a.len - 1 } := ⟨c.cells, hc.1, by show a.len - 1 ≤ _; omega⟩
  have he : c.view = a.view.eraseIdx p ++ [if p + 1 = a.view.length then HasNil.nilv else a.view.getLastD HasNil.nilv] := by
    rw [k4, g4]; exact erase_last a.view p (by omega)
  have hl : (a.view.eraseIdx p).length = a.len - 1 := by rw [List.length_eraseIdx, if_pos (by omega), hv]
  have hcells := cells_split c
  rw [he, k5, gs] at hcells
  refine ⟨{ c with len := a.len - 1 }, by simp only [ArrV.delete, g1, R.bind_ok, k1]; rfl, hw, ?_, ?_⟩
  · show c.cells.take (a.len - 1) = _
    rw [hcells, List.append_assoc, List.take_append, hl, Nat.sub_self, List.take_of_length_le (by omega)]
    simp
  · show c.cells.drop (a.len - 1) = _
    rw [hcells, List.append_assoc, List.drop_append, hl, Nat.sub_self, List.drop_of_length_le (by omega)]
    simp

theorem op_spare [HasNil α] (grow : Nat → Nat) {a b : ArrV α} (h : WFArr a) {o : SliceOp α} (he : a.op grow o = .ok b) :
    Leaves HasNil.nilv o a.view (spare a) (spare b) := by
  have hv := view_length h
  cases o with
  | append x =>
    simp only [ArrV.op] at he
    cases he
    rcases append_spare grow h x with ⟨y, e⟩ | ⟨e, k, e'⟩
    · rw [e]; exact .appendRoom x y _ _
    · rw [e, e']; exact .appendNew x _ k
  | set p x =>
    rw [(store_spare h he).2.1]; exact .set p x _ _
  | insert p x =>
    obtain ⟨w1, w2, w3, w4⟩ := append_spec grow h HasNil.nilv
    by_cases hp : p ≤ a.len
    · obtain ⟨c, g1, g2, g3, -, g5⟩ := copy_spare w1 (p + 1) p (by omega) (by omega)
      simp only [ArrV.op, ArrV.insert, g1, R.bind_ok] at he
      rw [(store_spare g2 he).2.1, g5]
      rcases append_spare grow h HasNil.nilv with ⟨y, e⟩ | ⟨e, k, e'⟩
      · rw [e]; exact .insertRoom p x y _ _
      · rw [e, e']; exact .insertNew p x _ k
    · simp only [ArrV.op, ArrV.insert, ArrV.copy] at he
      rw [if_neg (by omega)] at he
      cases he
  | delete p =>
    by_cases hp : p < a.len
    · obtain ⟨c, e1, e2, e3, e4⟩ := delete_spare h hp
      simp only [ArrV.op, e1] at he
      cases he
      rw [e4]
      by_cases hl : p + 1 = a.view.length
      · rw [if_pos hl]; exact .pop p _ _ hl
      · rw [if_neg hl]
        have hne : a.view ≠ [] := by intro h0; rw [h0] at hv; simp at hv; omega
        exact .delete p _ _ _ (by omega) (by rw [List.getLastD_eq_getLast?, List.getLast?_eq_some_getLast hne]; rfl)
    · simp [ArrV.op, ArrV.delete, ArrV.store, hp] at he
  | swap i j =>
    simp only [ArrV.op] at he
    cases hx : a.view[i]? with
    | none => rw [hx] at he; cases he
    | some x =>
      cases hy : a.view[j]? with
      | none => rw [hx, hy] at he; cases he
      | some y =>
        rw [hx, hy] at he
        cases hs : a.store i y with
        | ok c =>
          simp only [hs, R.bind_ok] at he
          obtain ⟨s1, s2, -⟩ := store_spare h hs
          rw [(store_spare s1 he).2.1, s2]
          exact .swap i j _ _
        | err e => simp only [hs] at he; cases he
        | panic => simp only [hs] at he; cases he
        | diverge => simp only [hs] at he; cases he

theorem op_view [HasNil α] (grow : Nat → Nat) {a b : ArrV α} (h : WFArr a) {o : SliceOp α} (he : a.op grow o = .ok b) : WFArr b ∧ listOp o a.view = .ok b.view := by
  rcases tracks_op grow h o with ⟨c, e1, e2, e3, -⟩ | ⟨e1, -⟩
  · rw [e1] at he; cases he; exact ⟨e3, e2⟩
  · rw [e1] at he; cases he

theorem ops_cons [HasNil α] (grow : Nat → Nat) {a c : ArrV α} {o : SliceOp α} {os : List (SliceOp α)} (he : a.ops grow (o :: os) = .ok c) :
    ∃ b, a.op grow o = .ok b ∧ b.ops grow os = .ok c := by
  rw [ArrV.ops] at he
  cases hb : a.op grow o with
  | ok b => rw [hb] at he; exact ⟨b, rfl, he⟩
  | err e => rw [hb] at he; cases he
  | panic => rw [hb] at he; cases he
  | diverge => rw [hb] at he; cases he

theorem ops_spare [HasNil α] (grow : Nat → Nat) : ∀ (os : List (SliceOp α)) {a b : ArrV α}, WFArr a → a.ops grow os = .ok b →
    WFArr b ∧ LeavesAll HasNil.nilv os a.view (spare a) b.view (spare b)
  | [], a, b, h, he => by cases he; exact ⟨h, .done _ _⟩
  | o :: os, a, c, h, he => by
    obtain ⟨b, h1, h2⟩ := ops_cons grow he
    obtain ⟨k1, k2⟩ := op_view grow h h1
    obtain ⟨k3, k4⟩ := ops_spare grow os k1 h2
    exact ⟨k3, .step k2 (op_spare grow h h1) k4⟩

/-! consequences of `Leaves` -/

theorem leaves_pops {nil : α} : ∀ {os : List (SliceOp α)} {xs sp ys sp' : List α}, LeavesAll nil os xs sp ys sp' → PopsOnly os xs.length → (∀ p ∈ sp, p = nil) →
    ∀ p ∈ sp', p = nil := by
  intro os xs sp ys sp' h
  induction h with
  | done => exact fun _ h => h
  | @step o os xs ys zs sp sp' sp'' h1 h2 h3 ih =>
    intro hp hs
    cases h2 with
    | set p x =>
      rw [listOp] at h1; split at h1 <;> cases h1
      exact ih (by simpa [PopsOnly] using hp) hs
    | swap p q =>
      rw [listOp] at h1; split at h1 <;> cases h1
      exact ih (by simpa [PopsOnly] using hp) hs
    | appendRoom x y =>
      cases h1
      exact ih (by simpa [PopsOnly] using hp) fun p h => hs p (by simp [h])
    | insertRoom p x y =>
      rw [listOp] at h1; split at h1 <;> cases h1
      exact ih (by rw [PopsOnly] at hp; rw [List.length_append, List.length_cons, List.length_take, List.length_drop]; rw [show min p xs.length + (xs.length - p + 1) = xs.length + 1 by omega]; exact hp) fun p h => hs p (by simp [h])
    | appendNew x _ k =>
      cases h1
      exact ih (by simpa [PopsOnly] using hp) fun p h => (List.mem_replicate.1 h).2
    | insertNew p x _ k =>
      rw [listOp] at h1; split at h1 <;> cases h1
      exact ih (by rw [PopsOnly] at hp; rw [List.length_append, List.length_cons, List.length_take, List.length_drop]; rw [show min p xs.length + (xs.length - p + 1) = xs.length + 1 by omega]; exact hp) fun p h => (List.mem_replicate.1 h).2
    | pop p _ _ hl =>
      rw [listOp, if_pos (by omega)] at h1; cases h1
      refine ih (by rw [List.length_eraseIdx, if_pos (by omega)]; exact hp.2) fun p h => ?_
      rcases List.mem_cons.1 h with rfl | h
      · rfl
      · exact hs p h
    | delete p z _ _ hl hz => exact absurd hp.1 (by omega)

theorem leaves_bound {nil : α} [DecidableEq α] : ∀ {os : List (SliceOp α)} {xs sp ys sp' : List α}, LeavesAll nil os xs sp ys sp' →
    sp'.countP (· ≠ nil) ≤ sp.countP (· ≠ nil) + deletions os := by
  intro os xs sp ys sp' h
  induction h with
  | done => simp [deletions]
  | @step o os xs ys zs sp sp' sp'' h1 h2 h3 ih =>
    refine Nat.le_trans ih ?_
    cases h2 with
    | set p x => simp [deletions]
    | swap p q => simp [deletions]
    | appendRoom x y => simp only [deletions, List.countP_cons]; omega
    | insertRoom p x y => simp only [deletions, List.countP_cons]; omega
    | appendNew x _ k => simp [deletions, List.countP_replicate]
    | insertNew p x _ k => simp [deletions, List.countP_replicate]
    | pop p _ _ hl => simp [deletions, List.countP_cons]
    | delete p z _ _ hl hz => simp only [deletions, List.countP_cons]; split <;> omega

theorem leaves_refill {nil : α} : ∀ (ys : List α) {xs sp zs sp' : List α}, LeavesAll nil (ys.map .append) xs sp zs sp' →
    (∃ l, sp = l ++ sp' ∧ l.length = ys.length) ∨ (sp.length ≤ ys.length ∧ ∀ p ∈ sp', p = nil)
  | [], xs, sp, zs, sp', h => by cases h; exact .inl ⟨[], rfl, rfl⟩
  | y :: ys, xs, sp, zs, sp', h => by
    cases h with
    | step h1 h2 h3 =>
      cases h2 with
      | appendRoom _ y' =>
        rcases leaves_refill ys h3 with ⟨l, e1, e2⟩ | ⟨e1, e2⟩
        · exact .inl ⟨y' :: l, by rw [e1]; rfl, by simp [e2]⟩
        · exact .inr ⟨by simpa using e1, e2⟩
      | appendNew _ _ k =>
        refine .inr ⟨by simp, ?_⟩
        rcases leaves_refill ys h3 with ⟨l, e1, e2⟩ | ⟨e1, e2⟩
        · intro p hp
          have : p ∈ List.replicate k nil := by rw [e1]; simp [hp]
          exact (List.mem_replicate.1 this).2
        · exact e2

end JV
