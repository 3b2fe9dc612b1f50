import Verif.Spec.ChanMut
import Verif.Proofs.RangeMut
import Verif.Proofs.Retain
/-! Invariants of the channel iterators while the value is changed. -/
namespace JV
open Spec
variable {α : Type}

/-! ## arrays keep their capacity -/

/-- the old arrays are as large as before -/
def Room (a b : ArrV α) : Prop := a.mem.length ≤ b.mem.length ∧ ∀ j, j < a.mem.length → (b.mem.getD j []).length = (a.mem.getD j []).length

theorem Room.refl (a : ArrV α) : Room a a := ⟨Nat.le_refl _, fun _ _ => rfl⟩

theorem Room.trans {a b c : ArrV α} (h : Room a b) (h' : Room b c) : Room a c :=
  ⟨Nat.le_trans h.1 h'.1, fun j hj => by have := h.1; rw [h'.2 j (by omega), h.2 j hj]⟩

theorem room_set {a : ArrV α} (cells : List α) (n : Nat) (hc : cells.length = a.cells.length) :
    Room a { a with mem := a.mem.set a.arr cells, len := n } := by
  refine ⟨by simp, fun j hj => ?_⟩
  by_cases he : a.arr = j
  · subst he
    simp only [List.getD, List.getElem?_set_self hj]
    simpa [ArrV.cells] using hc
  · simp only [List.getD, List.getElem?_set_ne he]

theorem room_append [HasNil α] (grow : Nat → Nat) (a : ArrV α) (x : α) : Room a (a.append grow x) := by
  unfold ArrV.append
  split
  · exact room_set _ _ (by simp)
  · exact ⟨by simp, fun j hj => by simp only [List.getD]; rw [List.getElem?_append_left hj]⟩

theorem room_store {a b : ArrV α} {i : Nat} {x : α} (h : a.store i x = .ok b) : Room a b := by
  unfold ArrV.store at h
  split at h
  · cases h; exact room_set _ _ (by simp)
  · cases h

theorem room_copy {a b : ArrV α} (hw : WFArr a) {d s : Nat} (h : a.copy d s = .ok b) : Room a b := by
  unfold ArrV.copy at h
  split at h
  · rename_i hd
    cases h
    have hv := view_length hw
    have hc := (wf_cells hw).2.1
    exact room_set _ a.len (by rw [List.length_append, copyAt_length _ _ _ (by omega), List.length_drop]; omega)
  · cases h

theorem op_room [HasNil α] (grow : Nat → Nat) {a b : ArrV α} (hw : WFArr a) {o : SliceOp α} (h : a.op grow o = .ok b) : Room a b := by
  cases o with
  | append x => cases h; exact room_append grow a x
  | set i x => exact room_store h
  | insert i x =>
    simp only [ArrV.op, ArrV.insert] at h
    have hw' := (append_spec grow hw HasNil.nilv).1
    cases hc : (a.append grow HasNil.nilv).copy (i + 1) i with
    | ok c => rw [hc] at h; exact ((room_append grow a _).trans (room_copy hw' hc)).trans (room_store h)
    | err e => rw [hc] at h; cases h
    | panic => rw [hc] at h; cases h
    | diverge => rw [hc] at h; cases h
  | delete i =>
    simp only [ArrV.op, ArrV.delete] at h
    by_cases hi : i < a.len
    · obtain ⟨c, g1, g2, -⟩ := store_spec hw i HasNil.nilv hi
      rw [g1, R.bind_ok] at h
      cases hd : c.copy i (i + 1) with
      | ok d =>
        rw [hd] at h
        cases h
        have hr := (room_store g1).trans (room_copy g2 hd)
        exact ⟨hr.1, hr.2⟩
      | err e => rw [hd] at h; cases h
      | panic => rw [hd] at h; cases h
      | diverge => rw [hd] at h; cases h
    · rw [ArrV.store, if_neg hi] at h; cases h
  | swap i j =>
    simp only [ArrV.op] at h
    split at h
    · rename_i x y _ _
      cases hc : a.store i y with
      | ok c => rw [hc] at h; exact (room_store hc).trans (room_store h)
      | err e => rw [hc] at h; cases h
      | panic => rw [hc] at h; cases h
      | diverge => rw [hc] at h; cases h
    · cases h

/-! ## IterArray -/

/-- what is known at any time if the array is not changed before the goroutine runs -/
structure IterInv (n0 k : Nat) (s : ArrIter α) : Prop where
  wf : WFArr s.v
  cap : s.cap = n0
  pre : s.hdr = none → s.v.len = n0 ∧ s.idx = 0 ∧ s.closed = false ∧ s.held = none ∧ s.got = [] ∧ s.ended = false
  hdr : ∀ arr n, s.hdr = some (arr, n) → n = n0 ∧ arr < s.v.mem.length ∧ n ≤ (s.v.mem.getD arr []).length
  idx : s.idx ≤ n0
  nums : (s.got ++ s.buf ++ s.held.toList).map Prod.snd = List.range s.idx
  closed : s.closed = true → s.idx = n0 ∧ s.held = none
  ended : s.ended = true → s.closed = true ∧ s.buf = []
  count : k + s.held.toList.length ≤ s.hdr.toList.length + 2 * s.idx + s.closed.toNat

theorem iterInv_start (a : ArrV α) (h : WFArr a) : IterInv a.len 0 (iterArrayMut a) :=
  ⟨h, rfl, fun _ => ⟨rfl, rfl, rfl, rfl, rfl, rfl⟩, nofun, Nat.zero_le _, rfl, nofun, nofun, by simp [iterArrayMut]⟩

theorem iterInv_send {n0 k : Nat} {s t : ArrIter α} (h : IterInv n0 k s) (hs : ArrSends s t) : IterInv n0 (k + 1) t := by
  obtain ⟨i1, i2, i3, i4, i5, i6, i7, i8, i9⟩ := h
  cases hs with
  | begin hh =>
    obtain ⟨j1, j2, j3, j4, j5, j6⟩ := i3 hh
    refine ⟨i1, i2, nofun, ?_, i5, i6, i7, i8, ?_⟩
    · intro arr n he
      cases he
      exact ⟨j1, (wf_cells i1).2.2, (wf_cells i1).2.1⟩
    · simp only [hh, Option.toList] at i9 ⊢; simp at i9 ⊢; omega
  | read arr n x hh hd hi hx =>
    obtain ⟨j1, j2, j3⟩ := i4 _ _ hh
    refine ⟨i1, i2, fun h0 => (by simp [hh] at h0), i4, by simp only; omega, ?_, fun hc => ?_, i8, ?_⟩
    · simp only [hd, Option.toList, List.append_nil] at i6
      simp only [Option.toList, List.map_append, List.range_succ] at i6 ⊢
      rw [i6]; rfl
    · have := (i7 hc).1; omega
    · simp only [hd, hh, Option.toList] at i9 ⊢; simp at i9 ⊢; omega
  | send p hd hb =>
    refine ⟨i1, i2, fun h0 => (by simp [hd] at i3; exact absurd h0 i3), i4, i5, ?_, fun hc => ?_, fun he => ?_, ?_⟩
    · simp only [hd, Option.toList] at i6
      simpa using i6
    · rw [(i7 hc).2] at hd; cases hd
    · rw [(i7 (i8 he).1).2] at hd; cases hd
    · simp only [hd, Option.toList] at i9 ⊢; simp at i9 ⊢; omega
  | close arr n hh hd hi hc =>
    obtain ⟨j1, j2, j3⟩ := i4 _ _ hh
    refine ⟨i1, i2, fun h0 => (by simp [hh] at h0), i4, i5, i6, fun _ => ⟨by simp only; omega, hd⟩, fun he => ?_, ?_⟩
    · have := (i8 he).1; rw [hc] at this; cases this
    · simp only [hc, Bool.toNat] at i9 ⊢; simp at i9 ⊢; omega

theorem iterInv_recv {n0 k : Nat} {s t : ArrIter α} (h : IterInv n0 k s) (hs : ArrReceives s t) : IterInv n0 k t := by
  obtain ⟨i1, i2, i3, i4, i5, i6, i7, i8, i9⟩ := h
  cases hs with
  | recv p r hb he =>
    refine ⟨i1, i2, fun h0 => ?_, i4, i5, ?_, i7, fun h => by simp [he] at h, i9⟩
    · obtain ⟨j1, j2, j3, j4, j5, j6⟩ := i3 h0
      rw [j2, hb] at i6
      simp at i6
    · rw [← i6, hb]; simp
  | direct p hd hb he =>
    refine ⟨i1, i2, fun h0 => ?_, i4, i5, ?_, fun hc => ?_, fun h => by simp [he] at h, ?_⟩
    · rw [(i3 h0).2.2.2.1] at hd; cases hd
    · rw [← i6, hb, hd]; simp
    · rw [(i7 hc).2] at hd; cases hd
    · simp only [hd, Option.toList] at i9 ⊢; simp at i9 ⊢; omega
  | finish hb hc he =>
    refine ⟨i1, i2, fun h0 => ?_, i4, i5, i6, i7, fun _ => ⟨hc, hb⟩, i9⟩
    have := (i3 h0).2.2.1; rw [hc] at this; cases this

theorem iterInv_change [HasNil α] (grow : Nat → Nat) {n0 k : Nat} {s : ArrIter α} (h : IterInv n0 k s) (hn : s.hdr ≠ none) {o : SliceOp α} {a : ArrV α}
    (he : s.v.op grow o = .ok a) : IterInv n0 k { s with v := a } := by
  obtain ⟨i1, i2, i3, i4, i5, i6, i7, i8, i9⟩ := h
  obtain ⟨r1, r2⟩ := op_room grow i1 he
  refine ⟨(op_view grow i1 he).1, i2, fun h0 => absurd h0 hn, fun arr n hh => ?_, i5, i6, i7, i8, i9⟩
  obtain ⟨j1, j2, j3⟩ := i4 _ _ hh
  exact ⟨j1, by simp only; omega, by simp only; rw [r2 arr j2]; exact j3⟩

theorem iterInv_begun {n0 k : Nat} {s : ArrIter α} (h : IterInv n0 k s) (hs : s.got ≠ [] ∨ s.ended = true) : s.hdr ≠ none := by
  intro h0
  obtain ⟨-, -, -, -, j5, j6⟩ := h.pre h0
  rcases hs with h | h
  · exact h j5
  · rw [j6] at h; cases h

theorem iterInv_runs [HasNil α] (grow : Nat → Nat) (may : ArrIter α → SliceOp α → Prop) (hm : ∀ s o, may s o → s.got ≠ [] ∨ s.ended = true)
    {a : ArrV α} (hw : WFArr a) {k : Nat} {s : ArrIter α} (h : ArrRuns grow may (iterArrayMut a) k s) : IterInv a.len k s := by
  induction h with
  | start => exact iterInv_start a hw
  | send _ hs ih => exact iterInv_send ih hs
  | recv _ hs ih => exact iterInv_recv ih hs
  | change _ o hmo b he ih => exact iterInv_change grow ih (iterInv_begun ih (hm _ _ hmo)) he

/-- the goroutine is never stuck -/
theorem iterInv_goes {n0 k : Nat} {s : ArrIter α} (h : IterInv n0 k s) (hc : s.closed = false) : ∃ t, ArrSends s t := by
  obtain ⟨i1, i2, i3, i4, i5, i6, i7, i8, i9⟩ := h
  cases hh : s.hdr with
  | none => exact ⟨_, .begin s hh⟩
  | some p =>
    obtain ⟨arr, n⟩ := p
    obtain ⟨j1, j2, j3⟩ := i4 _ _ hh
    cases hd : s.held with
    | none =>
      by_cases hi : s.idx < n
      · obtain ⟨x, hx⟩ : ∃ x, (s.v.mem.getD arr [])[s.idx]? = some x := ⟨_, List.getElem?_eq_getElem (by omega)⟩
        exact ⟨_, .read s arr n x hh hd hi hx⟩
      · exact ⟨_, .close s arr n hh hd (by omega) hc⟩
    | some p =>
      refine ⟨_, .send s p hd ?_⟩
      have := congrArg List.length i6
      simp [hd] at this
      omega

theorem iterInv_live {n0 k : Nat} {s : ArrIter α} (h : IterInv n0 k s) (he : s.ended = false) : (∃ t, ArrSends s t) ∨ ∃ t, ArrReceives s t := by
  cases hc : s.closed with
  | false => exact .inl (iterInv_goes h hc)
  | true =>
    cases hb : s.buf with
    | nil => exact .inr ⟨_, .finish s hb hc he⟩
    | cons x r => exact .inr ⟨_, .recv s x r hb he⟩

theorem iterInv_count {n0 k : Nat} {s : ArrIter α} (h : IterInv n0 k s) : k ≤ 2 * n0 + 2 := by
  have h1 := h.count
  have h2 := h.idx
  have h3 : s.hdr.toList.length ≤ 1 := by cases s.hdr <;> simp
  have h4 : s.closed.toNat ≤ 1 := by cases s.closed <;> simp
  omega

/-- what is known of the elements if the caller is careful -/
structure IterSame (a : ArrV α) (s : ArrIter α) : Prop where
  pre : s.hdr = none → s.v = a
  arr : ∀ arr n, s.hdr = some (arr, n) → arr = a.arr
  taken : s.got ++ s.buf ++ s.held.toList = a.view.zipIdx.take s.idx
  ahead : s.ended = false → s.hdr ≠ none → ∀ j, s.idx ≤ j → j < a.len → (s.v.mem.getD a.arr [])[j]? = a.view[j]?
  narrow : s.ended = false → s.hdr ≠ none → s.v.arr = a.arr → a.len ≤ s.v.len

theorem iterSame_start (a : ArrV α) : IterSame a (iterArrayMut a) := ⟨fun _ => rfl, nofun, rfl, fun _ h => absurd rfl h, fun _ h => absurd rfl h⟩

theorem iterSame_send {a : ArrV α} (hw : WFArr a) {k : Nat} {s t : ArrIter α} (hi : IterInv a.len k s) (h : IterSame a s) (hs : ArrSends s t) : IterSame a t := by
  obtain ⟨i1, i2, i3, i4, i5⟩ := h
  have hv := view_length hw
  cases hs with
  | begin hh =>
    have := i1 hh
    refine ⟨nofun, fun arr n he => ?_, i3, fun _ _ j hj hn => ?_, fun _ _ _ => ?_⟩
    · cases he; rw [this]
    · simp only [this]
      have := view_ahead hw j (by omega)
      simpa using this
    · simp only [this]; omega
  | read arr n x hh hd hix hx =>
    have he : s.ended = false := by
      cases he : s.ended with
      | false => rfl
      | true =>
        have := (hi.closed (hi.ended he).1).1
        have := (hi.hdr _ _ hh).1
        omega
    have hn := (hi.hdr _ _ hh).1
    refine ⟨fun h0 => (by simp [hh] at h0), i2, ?_, fun _ h0 j hj => i4 he h0 j (by simp only at hj; omega), i5⟩
    have e := i4 he (by simp [hh]) s.idx (Nat.le_refl _) (by omega)
    rw [i2 _ _ hh] at hx
    rw [hx] at e
    simp only [hd, Option.toList, List.append_nil] at i3
    simp only [Option.toList]
    rw [i3, List.take_add_one, List.getElem?_zipIdx, ← e]
    simp
  | send p hd hb =>
    refine ⟨fun h0 => ?_, i2, ?_, i4, i5⟩
    · rw [(hi.pre h0).2.2.2.1] at hd; cases hd
    · rw [← i3, hd]; simp
  | close arr n hh hd hix hc => exact ⟨i1, i2, i3, i4, i5⟩

theorem iterSame_recv {a : ArrV α} {k : Nat} {s t : ArrIter α} (hi : IterInv a.len k s) (h : IterSame a s) (hs : ArrReceives s t) : IterSame a t := by
  obtain ⟨i1, i2, i3, i4, i5⟩ := h
  cases hs with
  | recv p r hb he => exact ⟨i1, i2, by rw [← i3, hb]; simp, i4, i5⟩
  | direct p hd hb he => exact ⟨i1, i2, by rw [← i3, hb, hd]; simp, i4, i5⟩
  | finish hb hc he => exact ⟨i1, i2, i3, nofun, nofun⟩

theorem iterSame_change [HasNil α] (grow : Nat → Nat) {a : ArrV α} {k : Nat} {s : ArrIter α} (hi : IterInv a.len k s) (h : IterSame a s) {o : SliceOp α}
    (hm : CarefulCaller s o) {b : ArrV α} (he : s.v.op grow o = .ok b) : IterSame a { s with v := b } := by
  obtain ⟨i1, i2, i3, i4, i5⟩ := h
  have hb : s.hdr ≠ none := iterInv_begun hi (by rcases hm with h | ⟨h, -⟩; exact .inr h; exact .inl h)
  refine ⟨fun h0 => absurd h0 hb, i2, i3, fun hend _ j hj hn => ?_, fun hend _ hr => ?_⟩
  all_goals
    simp only at hend
    obtain ⟨hg, hcalm⟩ : s.got ≠ [] ∧ Calm (s.got.length - 1) o := by
      rcases hm with h | h
      · rw [hend] at h; cases h
      · exact h
    have hlen : s.got.length ≤ s.idx := by
      have := congrArg List.length hi.nums
      simp at this
      omega
    have hpos : 0 < s.got.length := List.length_pos_iff.2 hg
    have hidx := hi.idx
    obtain ⟨p, hp⟩ := Option.ne_none_iff_exists'.1 hb
    have harr : a.arr < s.v.mem.length := by
      have := (hi.hdr p.1 p.2 hp).2.1
      rwa [i2 p.1 p.2 hp] at this
    obtain ⟨c1, c2⟩ := calm_op grow (n := a.len) (arr := a.arr) (i := s.got.length - 1) (by omega) hi.wf (i5 hend hb) hcalm he harr
  · simp only at hj ⊢
    rw [c2 j (by omega) hn]
    exact i4 hend hb j hj hn
  · exact c1 hr

theorem careful_runs [HasNil α] (grow : Nat → Nat) {a : ArrV α} (hw : WFArr a) {k : Nat} {s : ArrIter α}
    (h : ArrRuns grow CarefulCaller (iterArrayMut a) k s) : IterInv a.len k s ∧ IterSame a s := by
  induction h with
  | start => exact ⟨iterInv_start a hw, iterSame_start a⟩
  | send _ hs ih => exact ⟨iterInv_send ih.1 hs, iterSame_send hw ih.1 ih.2 hs⟩
  | recv _ hs ih => exact ⟨iterInv_recv ih.1 hs, iterSame_recv ih.1 ih.2 hs⟩
  | change _ o hmo b he ih =>
    exact ⟨iterInv_change grow ih.1 (iterInv_begun ih.1 (by rcases hmo with h | ⟨h, -⟩; exact .inr h; exact .inl h)) he, iterSame_change grow ih.1 ih.2 hmo he⟩

theorem careful_delivers [HasNil α] (grow : Nat → Nat) {a : ArrV α} (hw : WFArr a) : ArrDelivers grow CarefulCaller (iterArrayMut a) a.view.zipIdx := by
  intro k s h
  obtain ⟨h1, h2⟩ := careful_runs grow hw h
  have hv := view_length hw
  refine ⟨⟨s.buf ++ s.held.toList ++ a.view.zipIdx.drop s.idx, ?_⟩, fun he => ?_, iterInv_goes h1, ?_, iterInv_live h1⟩
  · rw [← List.append_assoc, ← List.append_assoc, h2.taken, List.take_append_drop]
  · obtain ⟨e1, e2⟩ := h1.ended he
    obtain ⟨e3, e4⟩ := h1.closed e1
    have := h2.taken
    rw [e2, e3, e4, List.take_of_length_le (by simp; omega)] at this
    simpa using this
  · have := iterInv_count h1
    simpa [hv] using this

/-- left alone, goroutine and caller get to the end with what the cells hold -/
theorem runs_through [HasNil α] (grow : Nat → Nat) (may : ArrIter α → SliceOp α → Prop) (s0 : ArrIter α) (arr n : Nat) :
    ∀ (l : List α) (k : Nat) (s : ArrIter α), ArrRuns grow may s0 k s → s.hdr = some (arr, n) → s.idx + l.length = n → s.held = none → s.buf = [] →
      s.closed = false → s.ended = false → Ahead s.v arr s.idx l →
      ∃ k' t, ArrRuns grow may s0 k' t ∧ t.ended = true ∧ t.v = s.v ∧ t.got = s.got ++ l.zipIdx s.idx
  | [], k, s, h, h1, h2, h3, h4, h5, h6, _ => by
    refine ⟨_, _, (h.send (.close s arr n h1 h3 (by simpa using h2) h5)).recv (.finish _ h4 rfl h6), rfl, rfl, by simp⟩
  | x :: l, k, s, h, h1, h2, h3, h4, h5, h6, hA => by
    have hx : (s.v.mem.getD arr [])[s.idx]? = some x := by simpa using hA 0 (by simp)
    obtain ⟨k', t, g1, g2, g3, g4⟩ := runs_through grow may s0 arr n l _ _
      ((h.send (.read s arr n x h1 h3 (by simp at h2; omega) hx)).recv (.direct _ _ rfl h4 h6)) h1 (by simp at h2 ⊢; omega) rfl h4 h5 h6 (fun j hj => by
        have := hA (j + 1) (by simpa using hj)
        simp only
        rw [show s.idx + 1 + j = s.idx + (j + 1) by omega, this]
        simp)
    refine ⟨k', t, g1, g2, g3, ?_⟩
    rw [g4]
    simp

/-- without a receiver the goroutine goes on as long as there is room -/
theorem runs_fill [HasNil α] (grow : Nat → Nat) (may : ArrIter α → SliceOp α → Prop) (s0 : ArrIter α) (arr n : Nat) :
    ∀ (l : List α) (k : Nat) (s : ArrIter α), ArrRuns grow may s0 k s → s.hdr = some (arr, n) → s.idx + l.length ≤ n → s.held = none →
      s.buf.length + l.length ≤ s.cap → Ahead s.v arr s.idx l →
      ∃ k' t, ArrRuns grow may s0 k' t ∧ t = { s with idx := s.idx + l.length, buf := s.buf ++ l.zipIdx s.idx }
  | [], k, s, h, _, _, _, _, _ => ⟨k, s, h, by simp⟩
  | x :: l, k, s, h, h1, h2, h3, h4, hA => by
    have hx : (s.v.mem.getD arr [])[s.idx]? = some x := by simpa using hA 0 (by simp)
    simp only [List.length_cons] at h2 h4
    obtain ⟨k', t, g1, g2⟩ := runs_fill grow may s0 arr n l _ _
      ((h.send (.read s arr n x h1 h3 (by omega) hx)).send (.send _ _ rfl (by simp only; omega))) h1 (by simp only; omega) rfl (by simp; omega) (fun j hj => by
        have := hA (j + 1) (by simpa using hj)
        simp only
        rw [show s.idx + 1 + j = s.idx + (j + 1) by omega, this]
        simp)
    refine ⟨k', t, g1, ?_⟩
    rw [g2]
    simp only [List.length_cons, List.zipIdx_cons, List.append_assoc, List.cons_append, List.nil_append, h3]
    congr 1
    omega

/-- the caller takes what is in the buffer -/
theorem runs_drain [HasNil α] (grow : Nat → Nat) (may : ArrIter α → SliceOp α → Prop) (s0 : ArrIter α) :
    ∀ (l : List (α × Nat)) (k : Nat) (s : ArrIter α), ArrRuns grow may s0 k s → s.buf = l → s.ended = false →
      ∃ t, ArrRuns grow may s0 k t ∧ t = { s with buf := [], got := s.got ++ l }
  | [], k, s, h, h1, _ => ⟨s, h, by rw [List.append_nil, ← h1]⟩
  | p :: l, k, s, h, h1, h2 => by
    obtain ⟨t, g1, g2⟩ := runs_drain grow may s0 l k _ (h.recv (.recv s p l h1 h2)) rfl h2
    exact ⟨t, g1, by rw [g2]; simp⟩

/-! ## IterObjects -/

theorem obj_runs (E : Env) (may : ObjIterV → MapOp → Prop) (hm : ∀ s o, may s o → s.ended = true) (v : V) {k : Nat} {s : ObjIterV}
    (h : ObjRuns E may (iterObjectsMut v) k s) :
    s.cap = (mapEntries v).length ∧ s.dead = false ∧ (s.todo = none → s.v = v ∧ k = 0 ∧ s.closed = false ∧ s.ended = false ∧ s.got = [] ∧ s.buf = []) ∧
    (∀ l, s.todo = some l → (s.got ++ s.buf ++ l.map fun e => (e.key, e.v)).Perm (memberPairs v) ∧ (s.closed = true → l = []) ∧
      k + l.length ≤ (mapEntries v).length + 1 + s.closed.toNat) ∧ (s.ended = true → s.closed = true ∧ s.buf = []) := by
  induction h with
  | start => exact ⟨rfl, rfl, fun _ => ⟨rfl, rfl, rfl, rfl, rfl, rfl⟩, nofun, nofun⟩
  | send h hs ih =>
    obtain ⟨i1, i2, i3, i4, i5⟩ := ih
    cases hs with
    | begin l ht hl hd =>
      obtain ⟨j1, j2, j3, j4, j5, j6⟩ := i3 ht
      refine ⟨i1, i2, nofun, fun l' hl' => ?_, i5⟩
      cases hl'
      rw [j1] at hl
      refine ⟨?_, fun hc => ?_, ?_⟩
      · simp only [j5, j6, List.nil_append]
        have : memberPairs v = (mapEntries v).map fun e => (e.key, e.v) := by cases v <;> rfl
        rw [this]
        exact hl.map _
      · simp only [j3] at hc; cases hc
      · simp only [hl.length_eq, j2]; omega
    | send e l ht hb hd =>
      obtain ⟨j1, j2, j3⟩ := i4 _ ht
      have hc : ∀ b, (b = true → e :: l = []) → b = false := by intro b hb; cases b with | false => rfl | true => simp at hb
      have hcl := hc _ j2
      refine ⟨i1, i2, nofun, fun l' hl' => ?_, fun he => ?_⟩
      · cases hl'
        refine ⟨by simpa using j1, fun h => ?_, ?_⟩
        · simp only [hcl] at h; cases h
        · simp only [List.length_cons] at j3 ⊢; omega
      · have := (i5 he).1; rw [hcl] at this; cases this
    | close ht hc hd =>
      obtain ⟨j1, j2, j3⟩ := i4 _ ht
      refine ⟨i1, i2, fun h0 => (by simp [ht] at h0), fun l' hl' => ?_, fun he => ?_⟩
      · simp only at hl'
        rw [ht] at hl'
        cases hl'
        refine ⟨j1, fun _ => rfl, ?_⟩
        simp only [hc, Bool.toNat] at j3 ⊢; simp at j3 ⊢; omega
      · have := (i5 he).1; rw [hc] at this; cases this
  | recv h hs ih =>
    obtain ⟨i1, i2, i3, i4, i5⟩ := ih
    cases hs with
    | recv p r hb he hd =>
      refine ⟨i1, i2, fun h0 => ?_, fun l hl => ?_, fun h => by simp [he] at h⟩
      · rw [(i3 h0).2.2.2.2.2] at hb; cases hb
      · obtain ⟨j1, j2, j3⟩ := i4 _ hl
        exact ⟨by rw [hb] at j1; simpa using j1, j2, j3⟩
    | direct e l ht hb he hd =>
      obtain ⟨j1, j2, j3⟩ := i4 _ ht
      refine ⟨i1, i2, nofun, fun l' hl' => ?_, fun h => by simp [he] at h⟩
      cases hl'
      refine ⟨by rw [hb] at j1; simpa [hb] using j1, fun h => ?_, ?_⟩
      · have := j2 h; cases this
      · simp only [List.length_cons] at j3 ⊢; omega
    | finish hb hc he hd => exact ⟨i1, i2, fun h0 => (by rw [(i3 h0).2.2.1] at hc; cases hc), i4, fun _ => ⟨hc, hb⟩⟩
  | change h o hmo hd ih =>
    obtain ⟨i1, i2, i3, i4, i5⟩ := ih
    have he := hm _ _ hmo
    have hc := (i5 he).1
    refine ⟨i1, by simp [hc], fun h0 => ?_, i4, i5⟩
    rw [(i3 h0).2.2.2.1] at he; cases he

theorem obj_delivers (E : Env) (v : V) : ObjDelivers E AfterEnd (iterObjectsMut v) (memberPairs v) := by
  intro k s h
  obtain ⟨i1, i2, i3, i4, i5⟩ := obj_runs E AfterEnd (fun _ _ h => h) v h
  have hlen : (memberPairs v).length = (mapEntries v).length := by cases v <;> simp [memberPairs, mapEntries]
  have hgo : s.closed = false → ∃ t, ObjSends s t := by
    intro hc
    cases ht : s.todo with
    | none => exact ⟨_, .begin s _ ht (List.Perm.refl _) i2⟩
    | some l =>
      cases l with
      | nil => exact ⟨_, .close s ht hc i2⟩
      | cons e l =>
        refine ⟨_, .send s e l ht ?_ i2⟩
        have := (i4 _ ht).1.length_eq
        simp at this
        omega
  refine ⟨i2, ?_, fun he => ?_, hgo, ?_, fun he => ?_⟩
  · cases ht : s.todo with
    | none => exact ⟨memberPairs v, by rw [(i3 ht).2.2.2.2.1]; exact List.Perm.refl _⟩
    | some l => exact ⟨_, by rw [← List.append_assoc]; exact (i4 _ ht).1⟩
  · obtain ⟨e1, e2⟩ := i5 he
    cases ht : s.todo with
    | none => rw [(i3 ht).2.2.1] at e1; cases e1
    | some l =>
      obtain ⟨j1, j2, -⟩ := i4 _ ht
      rw [e2, j2 e1] at j1
      simpa using j1
  · cases ht : s.todo with
    | none => have := (i3 ht).2.1; omega
    | some l =>
      have := (i4 _ ht).2.2
      have h4 : s.closed.toNat ≤ 1 := by cases s.closed <;> simp
      omega
  · cases hc : s.closed with
    | false => exact .inl (hgo hc)
    | true =>
      cases hb : s.buf with
      | nil => exact .inr ⟨_, .finish s hb hc he i2⟩
      | cons x r => exact .inr ⟨_, .recv s x r hb he i2⟩

theorem obj_last_run (E : Env) (may : ObjIterV → MapOp → Prop) (s0 : ObjIterV) : ∀ (l : List Ent) (k : Nat) (s : ObjIterV), ObjRuns E may s0 k s → s.todo = some l →
    s.buf = [] → s.closed = false → s.ended = false → s.dead = false →
    ∃ t, ObjRuns E may s0 k t ∧ t = { s with todo := some [], got := s.got ++ l.map fun e => (e.key, e.v) }
  | [], k, s, h, h1, _, _, _, _ => ⟨s, h, by simp [← h1]⟩
  | e :: l, k, s, h, h1, h2, h3, h4, h5 => by
    obtain ⟨t, g1, g2⟩ := obj_last_run E may s0 l k _ (h.recv (.direct s e l h1 h2 h4 h5)) rfl h2 h3 h4 h5
    exact ⟨t, g1, by rw [g2]; simp⟩

end JV
