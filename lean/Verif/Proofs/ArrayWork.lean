import Verif.Model.ArrayWork
import Verif.Spec.ArrayWork
import Verif.Proofs.RangeMut
/-! Helper lemmas for C103. -/
namespace JV
open Spec

variable {α : Type}

theorem store_size {a b : ArrV α} (hw : WFArr a) {i : Nat} {x : α} (h : a.store i x = .ok b) :
    WFArr b ∧ b.len = a.len ∧ b.cells.length = a.cells.length := by
  by_cases hi : i < a.len
  · have hr := wf_cells hw
    obtain ⟨c, g1, g2, -⟩ := store_spec hw i x hi
    rw [g1] at h; cases h
    rw [ArrV.store, if_pos hi] at g1
    cases g1
    refine ⟨g2, rfl, ?_⟩
    simp [ArrV.cells, List.getD_eq_getElem?_getD, hr.2.2]
  · rw [ArrV.store, if_neg hi] at h; cases h

theorem copy_size {a b : ArrV α} (hw : WFArr a) {d s : Nat} (h : a.copy d s = .ok b) :
    WFArr b ∧ b.len = a.len ∧ b.cells.length = a.cells.length := by
  by_cases hi : d ≤ a.len ∧ s ≤ a.len
  · have hr := wf_cells hw
    obtain ⟨c, g1, g2, -⟩ := copy_spec hw d s hi.1 hi.2
    rw [g1] at h; cases h
    rw [ArrV.copy, if_pos hi] at g1
    cases g1
    refine ⟨g2, rfl, ?_⟩
    have hv := view_length hw
    have hl := copyAt_length a.view d (a.view.drop s) (by omega)
    simp only [ArrV.fill, ArrV.cells, List.getD_eq_getElem?_getD, List.getElem?_set_self hr.2.2, Option.getD_some, List.length_append, List.length_drop]
    have e : (a.mem[a.arr]?.getD []) = a.cells := by simp [ArrV.cells, List.getD_eq_getElem?_getD]
    rw [e, hl, hv]
    omega
  · rw [ArrV.copy, if_neg hi] at h; cases h

theorem append_size [HasNil α] {grow : Nat → Nat} (hg : GoodGrow grow) {a : ArrV α} (hw : WFArr a) (x : α) :
    WFArr (a.append grow x) ∧ (a.append grow x).len = a.len + 1 ∧
    (a.append grow x).cells.length = if a.len < a.cells.length then a.cells.length else grow a.len := by
  have hr := wf_cells hw
  refine ⟨(append_spec grow hw x).1, ?_, ?_⟩
  · unfold ArrV.append; split <;> rfl
  · have := hg.room a.len
    have hv := view_length hw
    unfold ArrV.append
    split
    · simp [ArrV.cells, List.getD_eq_getElem?_getD, hr.2.2]
    · simp only [ArrV.cells, List.getD_eq_getElem?_getD]
      rw [List.getElem?_append_right (Nat.le_refl _)]
      simp [hv]
      omega

/-- what has been put by for the next copy to a larger array -/
def creditOf (a : ArrV α) : Nat := 5 * a.len - 4 * a.cells.length

theorem op_work [HasNil α] {grow : Nat → Nat} (hg : GoodGrow grow) {a : ArrV α} (hw : WFArr a) (o : SliceOp α) :
    (∀ b, a.op grow o = .ok b → WFArr b ∧ b.len = lenAfter a.len o ∧ a.opW o + creditOf b ≤ 7 + behind a.len o + creditOf a) ∧
    a.opW o ≤ 7 + behind a.len o + creditOf a := by
  have hr := wf_cells hw
  have happ : ∀ x, a.appendW + creditOf (a.append grow x) ≤ 6 + creditOf a := by
    intro x
    obtain ⟨-, h1, h2⟩ := append_size hg hw x
    have h3 := hg.quarter a.len
    unfold creditOf ArrV.appendW
    rw [h1, h2]
    split <;> omega
  cases o with
  | append x =>
    have h := happ x
    obtain ⟨h0, h1, h2⟩ := append_size hg hw x
    refine ⟨fun b hb => ?_, by simp only [ArrV.opW, behind]; omega⟩
    cases hb
    exact ⟨h0, h1, by simp only [ArrV.opW, behind]; omega⟩
  | set i x =>
    refine ⟨fun b hb => ?_, by simp only [ArrV.opW, behind]; omega⟩
    obtain ⟨h0, h1, h2⟩ := store_size hw hb
    exact ⟨h0, h1, by simp only [ArrV.opW, behind, creditOf]; omega⟩
  | insert i x =>
    have h := happ HasNil.nilv
    obtain ⟨h0, h1, h2⟩ := append_size hg hw (HasNil.nilv : α)
    refine ⟨fun b hb => ?_, by simp only [ArrV.opW, behind]; omega⟩
    simp only [ArrV.op, ArrV.insert] at hb
    cases hc : (a.append grow HasNil.nilv).copy (i + 1) i with
    | ok c =>
      rw [hc] at hb
      obtain ⟨c0, c1, c2⟩ := copy_size h0 hc
      obtain ⟨d0, d1, d2⟩ := store_size c0 hb
      refine ⟨d0, by simp only [lenAfter]; omega, ?_⟩
      have : creditOf b = creditOf (a.append grow HasNil.nilv) := by unfold creditOf; rw [d1, d2, c1, c2]
      rw [this]
      simp only [ArrV.opW, behind]; omega
    | err e => rw [hc] at hb; cases hb
    | panic => rw [hc] at hb; cases hb
    | diverge => rw [hc] at hb; cases hb
  | delete i =>
    refine ⟨fun b hb => ?_, by simp only [ArrV.opW, behind]; omega⟩
    simp only [ArrV.op, ArrV.delete] at hb
    cases hs : a.store i HasNil.nilv with
    | ok c =>
      rw [hs, R.bind_ok] at hb
      obtain ⟨c0, c1, c2⟩ := store_size hw hs
      cases hc : c.copy i (i + 1) with
      | ok d =>
        rw [hc] at hb
        obtain ⟨d0, d1, d2⟩ := copy_size c0 hc
        cases hb
        have hd := wf_cells d0
        refine ⟨?_, rfl, ?_⟩
        · have := tracks_op grow hw (.delete i)
          have he : a.op grow (.delete i) = .ok { d with len := a.len - 1 } := by
            simp only [ArrV.op, ArrV.delete]; rw [hs, R.bind_ok, hc]; rfl
          rw [he] at this
          unfold Tracks at this
          grind
        · have e : creditOf { d with len := a.len - 1 } = 5 * (a.len - 1) - 4 * d.cells.length := rfl
          rw [e]
          simp only [ArrV.opW, behind, creditOf]
          omega
      | err e => rw [hc] at hb; cases hb
      | panic => rw [hc] at hb; cases hb
      | diverge => rw [hc] at hb; cases hb
    | err e => rw [hs] at hb; cases hb
    | panic => rw [hs] at hb; cases hb
    | diverge => rw [hs] at hb; cases hb
  | swap i j =>
    refine ⟨fun b hb => ?_, by simp only [ArrV.opW, behind]; omega⟩
    simp only [ArrV.op] at hb
    split at hb
    · rename_i x y _ _
      cases hs : a.store i y with
      | ok c =>
        rw [hs, R.bind_ok] at hb
        obtain ⟨c0, c1, c2⟩ := store_size hw hs
        obtain ⟨d0, d1, d2⟩ := store_size c0 hb
        exact ⟨d0, by simp only [lenAfter]; omega, by simp only [ArrV.opW, behind, creditOf]; omega⟩
      | err e => rw [hs] at hb; cases hb
      | panic => rw [hs] at hb; cases hb
      | diverge => rw [hs] at hb; cases hb
    · cases hb

theorem ops_work [HasNil α] {grow : Nat → Nat} (hg : GoodGrow grow) : ∀ (os : List (SliceOp α)) {a : ArrV α}, WFArr a →
    a.opsW grow os ≤ 7 * os.length + behindAll a.len os + creditOf a
  | [], a, _ => by simp [ArrV.opsW]
  | o :: os, a, hw => by
    obtain ⟨h1, h2⟩ := op_work hg hw o
    simp only [ArrV.opsW, behindAll, List.length_cons]
    split
    · rename_i b hb
      obtain ⟨g1, g2, g3⟩ := h1 b hb
      have := ops_work hg os g1
      rw [g2] at this
      omega
    · omega

end JV
