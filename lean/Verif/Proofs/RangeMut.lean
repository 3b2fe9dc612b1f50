import Verif.Spec.RangeMut
import Verif.Proofs.Modify
import Verif.Proofs.Maps
/-! Slices behave as lists of their elements; loops over them. -/
namespace JV
open Spec
variable {α σ : Type}

theorem wf_cells {a : ArrV α} (h : WFArr a) : a.mem[a.arr]? = some a.cells ∧ a.len ≤ a.cells.length ∧ a.arr < a.mem.length := by
  obtain ⟨cells, h1, h2⟩ := h
  have h3 : a.cells = cells := by simp [ArrV.cells, List.getD, h1]
  rw [h3]
  exact ⟨h1, h2, (List.getElem?_eq_some_iff.1 h1).1⟩

theorem view_length {a : ArrV α} (h : WFArr a) : a.view.length = a.len := by
  have := (wf_cells h).2.1
  simp [ArrV.view]; omega

/-- what a change of one slice does to the other arrays: nothing -/
structure Frame (a b : ArrV α) : Prop where
  more : a.mem.length ≤ b.mem.length
  arr : b.arr = a.arr ∨ a.mem.length ≤ b.arr
  rest : ∀ j, j < a.mem.length → j ≠ a.arr → b.mem[j]? = a.mem[j]?

theorem Frame.refl (a : ArrV α) : Frame a a := ⟨Nat.le_refl _, .inl rfl, fun _ _ _ => rfl⟩

theorem Frame.trans {a b c : ArrV α} (h : Frame a b) (h' : Frame b c) : Frame a c where
  more := Nat.le_trans h.more h'.more
  arr := by
    have := h.more
    rcases h.arr with e | e <;> rcases h'.arr with e' | e' <;> omega
  rest j hj hn := by
    have := h.more
    rw [h'.rest j (by omega) (by rcases h.arr with e | e <;> omega), h.rest j hj hn]

/-- the outcome of an operation on a slice is the one on lists -/
def Tracks (a : ArrV α) (r : R (ArrV α)) (l : R (List α)) : Prop :=
  (∃ b, r = .ok b ∧ l = .ok b.view ∧ WFArr b ∧ Frame a b) ∨ (r = .panic ∧ l = .panic)

/-- writing other cells into the array -/
theorem set_cells {a : ArrV α} (h : WFArr a) (cells : List α) (n : Nat) (hn : n ≤ cells.length) :
    let b : ArrV α := { a with mem := a.mem.set a.arr cells, len := n }
    WFArr b ∧ Frame a b ∧ b.cells = cells ∧ b.view = cells.take n := by
  have ha := (wf_cells h).2.2
  have hg : (a.mem.set a.arr cells)[a.arr]? = some cells := by simp [ha]
  refine ⟨⟨cells, hg, hn⟩, ⟨by simp, .inl rfl, fun j hj hne => ?_⟩, ?_, ?_⟩
  · simp only
    rw [List.getElem?_set_ne (Ne.symm hne)]
  · simp [ArrV.cells, List.getD, hg]
  · simp [ArrV.view, ArrV.cells, List.getD, hg]

theorem append_spec [HasNil α] (grow : Nat → Nat) {a : ArrV α} (h : WFArr a) (x : α) :
    WFArr (a.append grow x) ∧ Frame a (a.append grow x) ∧ (a.append grow x).view = a.view ++ [x] ∧ (a.append grow x).len = a.len + 1 := by
  obtain ⟨h1, h2, h3⟩ := wf_cells h
  unfold ArrV.append
  by_cases hc : a.len < a.cells.length
  · rw [if_pos hc]
    obtain ⟨g1, g2, -, g4⟩ := set_cells h (a.cells.set a.len x) (a.len + 1) (by simp; omega)
    refine ⟨g1, g2, g4.trans ?_, rfl⟩
    unfold ArrV.view
    rw [List.take_succ, List.take_set_of_le (Nat.le_refl _)]
    simp [hc]
  · rw [if_neg hc]
    have hg : (a.mem ++ [a.view ++ x :: List.replicate (grow a.len - (a.len + 1)) HasNil.nilv])[a.mem.length]? =
        some (a.view ++ x :: List.replicate (grow a.len - (a.len + 1)) HasNil.nilv) := by simp
    have hv := view_length h
    refine ⟨⟨_, hg, ?_⟩, ⟨by simp, .inr (Nat.le_refl _), fun j hj hne => ?_⟩, ?_, rfl⟩
    · simp only [List.length_append, List.length_cons, hv]; omega
    · simp only; rw [List.getElem?_append_left hj]
    · have : (ArrV.mk (a.mem ++ [a.view ++ x :: List.replicate (grow a.len - (a.len + 1)) HasNil.nilv]) a.mem.length (a.len + 1)).cells =
          a.view ++ x :: List.replicate (grow a.len - (a.len + 1)) HasNil.nilv := by simp [ArrV.cells, List.getD, hg]
      rw [ArrV.view, this, List.take_append]
      simp only [hv]
      rw [show a.len + 1 - a.len = 1 by omega, List.take_of_length_le (by omega)]
      simp

theorem store_spec {a : ArrV α} (h : WFArr a) (i : Nat) (x : α) (hi : i < a.len) :
    ∃ b, a.store i x = .ok b ∧ WFArr b ∧ Frame a b ∧ b.view = a.view.set i x ∧ b.len = a.len ∧ b.arr = a.arr ∧ b.cells = a.cells.set i x := by
  obtain ⟨g1, g2, g3, g4⟩ := set_cells h (a.cells.set i x) a.len (by simpa using (wf_cells h).2.1)
  refine ⟨_, by rw [ArrV.store, if_pos hi], g1, g2, g4.trans ?_, rfl, rfl, g3⟩
  unfold ArrV.view
  rw [List.take_set]

theorem copyAt_length (xs : List α) (d : Nat) (src : List α) (h : d ≤ xs.length) : (copyAt xs d src).length = xs.length := by
  simp [copyAt]; omega

theorem copy_spec {a : ArrV α} (h : WFArr a) (d s : Nat) (hd : d ≤ a.len) (hs : s ≤ a.len) :
    ∃ b, a.copy d s = .ok b ∧ WFArr b ∧ Frame a b ∧ b.view = copyAt a.view d (a.view.drop s) ∧ b.len = a.len := by
  have hv := view_length h
  have hl : (copyAt a.view d (a.view.drop s)).length = a.len := by rw [copyAt_length _ _ _ (by omega), hv]
  obtain ⟨g1, g2, -, g4⟩ := set_cells h (copyAt a.view d (a.view.drop s) ++ a.cells.drop a.len) a.len (by simp [hl])
  refine ⟨_, by rw [ArrV.copy, if_pos ⟨hd, hs⟩]; rfl, g1, g2, g4.trans ?_, rfl⟩
  rw [List.take_append_of_le_length (by omega), List.take_of_length_le (by omega)]

theorem tracks_op [HasNil α] (grow : Nat → Nat) {a : ArrV α} (h : WFArr a) (o : SliceOp α) : Tracks a (a.op grow o) (listOp o a.view) := by
  have hv := view_length h
  cases o with
  | append x =>
    obtain ⟨h1, h2, h3, -⟩ := append_spec grow h x
    exact .inl ⟨_, rfl, by rw [listOp, h3], h1, h2⟩
  | set i x =>
    by_cases hi : i < a.len
    · obtain ⟨b, h1, h2, h3, h4, -⟩ := store_spec h i x hi
      exact .inl ⟨b, h1, by rw [listOp, if_pos (by omega), h4], h2, h3⟩
    · exact .inr ⟨by simp [ArrV.op, ArrV.store, hi], by rw [listOp, if_neg (by omega)]⟩
  | insert i x =>
    obtain ⟨h1, h2, h3, h4⟩ := append_spec grow h HasNil.nilv
    have hl : (a.append grow HasNil.nilv).view.length = a.len + 1 := by rw [view_length h1, h4]
    by_cases hi : i ≤ a.len
    · obtain ⟨b, g1, g2, g3, g4, g5⟩ := copy_spec h1 (i + 1) i (by omega) (by omega)
      obtain ⟨c, k1, k2, k3, k4, -⟩ := store_spec g2 i x (by omega)
      refine .inl ⟨c, ?_, ?_, k2, (h2.trans g3).trans k3⟩
      · simp only [ArrV.op, ArrV.insert, g1, R.bind_ok, k1]
      · have hq := insertToArr_eq a.view i x (by omega)
        unfold insertToArr at hq
        simp only [← h3] at hq
        rw [if_pos (by omega), ← g4, if_pos (by rw [view_length g2]; omega), ← k4] at hq
        rw [listOp, if_pos (by omega)]
        exact hq.symm
    · refine .inr ⟨?_, by rw [listOp, if_neg (by omega)]⟩
      simp only [ArrV.op, ArrV.insert, ArrV.copy, h4]
      rw [if_neg (by omega)]
      rfl
  | delete i =>
    by_cases hi : i < a.len
    · obtain ⟨b, g1, g2, g3, g4, g5, -⟩ := store_spec h i HasNil.nilv hi
      obtain ⟨c, k1, k2, k3, k4, k5⟩ := copy_spec g2 i (i + 1) (by omega) (by omega)
      have hc := wf_cells k2
      refine .inl ⟨{ c with len := a.len - 1 }, ?_, ?_, ⟨c.cells, hc.1, by show a.len - 1 ≤ _; omega⟩, ?_⟩
      · simp only [ArrV.op, ArrV.delete, g1, R.bind_ok, k1]; rfl
      · have hq := deleteInArr_eq a.view i (by omega)
        unfold deleteInArr at hq
        rw [if_pos (by omega)] at hq
        simp only [← g4, ← k4, hv] at hq
        rw [listOp, if_pos (by omega), ← hq]
        congr 1
        simp only [ArrV.view, List.take_take]
        congr 1
        omega
      · have f := g3.trans k3
        exact ⟨f.more, f.arr, f.rest⟩
    · exact .inr ⟨by simp [ArrV.op, ArrV.delete, ArrV.store, hi], by rw [listOp, if_neg (by omega)]⟩
  | swap i j =>
    simp only [ArrV.op, listOp]
    cases hx : a.view[i]? with
    | none => exact .inr ⟨rfl, rfl⟩
    | some x =>
      cases hy : a.view[j]? with
      | none => exact .inr ⟨rfl, rfl⟩
      | some y =>
        have hi := (List.getElem?_eq_some_iff.1 hx).1
        have hj := (List.getElem?_eq_some_iff.1 hy).1
        obtain ⟨b, g1, g2, g3, g4, g5, -⟩ := store_spec h i y (by omega)
        obtain ⟨c, k1, k2, k3, k4, -⟩ := store_spec g2 j x (by omega)
        exact .inl ⟨c, by simp only [g1, R.bind_ok, k1], by rw [k4, g4], k2, g3.trans k3⟩

theorem tracks_ops [HasNil α] (grow : Nat → Nat) : ∀ (os : List (SliceOp α)) {a : ArrV α}, WFArr a → Tracks a (a.ops grow os) (listOps os a.view)
  | [], a, h => .inl ⟨a, rfl, rfl, h, .refl a⟩
  | o :: os, a, h => by
    rcases tracks_op grow h o with ⟨b, h1, h2, h3, h4⟩ | ⟨h1, h2⟩
    · rcases tracks_ops grow os h3 with ⟨c, k1, k2, k3, k4⟩ | ⟨k1, k2⟩
      · exact .inl ⟨c, by simp only [ArrV.ops, h1, R.bind_ok, k1], by simp only [listOps, h2, k2], k3, h4.trans k4⟩
      · exact .inr ⟨by simp only [ArrV.ops, h1, R.bind_ok, k1], by simp only [listOps, h2, k2]⟩
    · exact .inr ⟨by simp only [ArrV.ops, h1]; rfl, by simp only [listOps, h2]⟩

/-- the cells of the slice `(arr, n)` from index `i` on are the elements of `l` -/
def Ahead (a : ArrV α) (arr i : Nat) (l : List α) : Prop := ∀ (j : Nat), j < l.length → (a.mem.getD arr [])[i + j]? = l[j]?

theorem rangeSlice_snapshot [HasNil α] (grow : Nat → Nat) (cb : ArrCallback σ α) (arr n : Nat) (P : ArrV α → Nat → Prop)
    (hP : ∀ s i x a b, P a i → i < n → WFArr a → a.ops grow (cb s i x a.view).2.1 = .ok b → (cb s i x a.view).2.2 = true → Frame a b →
      P b (i + 1) ∧ ∀ j, i < j → j < n → (b.mem.getD arr [])[j]? = (a.mem.getD arr [])[j]?) :
    ∀ (l : List α) (i : Nat) (s : σ) (a : ArrV α), i + l.length = n → WFArr a → P a i → Ahead a arr i l →
      outcome (rangeSlice grow cb arr n l.length s a) = snapshotLoop cb (l.zipIdx i) s a.view
  | [], i, s, a, _, _, _, _ => rfl
  | x :: l, i, s, a, hn, hw, hp, hA => by
    have hi : n - (l.length + 1) = i := by simp only [List.length_cons] at hn; omega
    have h0 : (a.mem.getD arr [])[i]? = some x := by simpa using hA 0 (by simp)
    simp only [List.length_cons, rangeSlice, hi, h0, List.zipIdx_cons, snapshotLoop]
    rcases tracks_ops grow (cb s i x a.view).2.1 hw with ⟨b, h1, h2, h3, h4⟩ | ⟨h1, h2⟩
    · simp only [h1, R.bind_ok, h2]
      cases hgo : (cb s i x a.view).2.2 with
      | false => rfl
      | true =>
        simp only [if_true]
        have hn' : i + (l.length + 1) = n := by simpa using hn
        obtain ⟨hp', hc⟩ := hP s i x a b hp (by omega) hw h1 hgo h4
        refine rangeSlice_snapshot grow cb arr n P hP l (i + 1) _ b (by omega) h3 hp' fun j hj => ?_
        rw [hc _ (by omega) (by omega)]
        have := hA (j + 1) (by simpa using hj)
        rw [show i + 1 + j = i + (j + 1) by omega]
        simpa using this
    · simp only [h1, h2]
      rfl

theorem view_ahead {a : ArrV α} (h : WFArr a) : Ahead a a.arr 0 a.view := by
  intro j hj
  rw [view_length h] at hj
  simp [ArrV.view, ArrV.cells, hj]

/-- a loop over a copy -/
theorem forRange_snapshot [HasNil α] (grow : Nat → Nat) (cb : ArrCallback σ α) (s : σ) (a : ArrV α) (h : WFArr a) :
    outcome (forRangeArrMut grow cb s a) = snapshotLoop cb a.view.zipIdx s a.view := by
  obtain ⟨cells, h1, h2⟩ := h
  have ha := (List.getElem?_eq_some_iff.1 h1).1
  have hw : WFArr { a with mem := a.mem ++ [a.view] } := ⟨cells, by simp only; rw [List.getElem?_append_left ha]; exact h1, h2⟩
  have hv : ({ a with mem := a.mem ++ [a.view] } : ArrV α).view = a.view := by
    simp only [ArrV.view, ArrV.cells, List.getD]
    rw [List.getElem?_append_left ha]
  have hl := view_length ⟨cells, h1, h2⟩
  unfold forRangeArrMut
  have := rangeSlice_snapshot grow cb a.mem.length a.len (fun b _ => b.arr ≠ a.mem.length ∧ a.mem.length < b.mem.length) (by
    intro s i x b c hb _ _ _ _ hf
    have := hf.more
    refine ⟨⟨?_, by omega⟩, fun j _ _ => ?_⟩
    · rcases hf.arr with e | e <;> omega
    · simp only [List.getD]
      rw [hf.rest _ (by omega) (by omega)]) a.view 0 s { a with mem := a.mem ++ [a.view] } (by omega) hw ⟨by simp only; omega, by simp⟩ (by
    intro j hj
    simp [List.getD])
  rw [hl, hv] at this
  exact this

/-- calm operations of round `i` on the slice the loop runs over -/
theorem calm_op [HasNil α] (grow : Nat → Nat) {a b : ArrV α} {o : SliceOp α} {arr n i : Nat} (hi : i < n) (h : WFArr a) (hlen : a.arr = arr → n ≤ a.len)
    (hc : Calm i o) (he : a.op grow o = .ok b) (ha : arr < a.mem.length) :
    (b.arr = arr → n ≤ b.len) ∧ ∀ j, i < j → j < n → (b.mem.getD arr [])[j]? = (a.mem.getD arr [])[j]? := by
  have store : ∀ {a b : ArrV α} {p : Nat} {y : α}, WFArr a → (a.arr = arr → n ≤ a.len) → p ≤ i → p < a.len → a.store p y = .ok b →
      (b.arr = arr → n ≤ b.len) ∧ b.arr = a.arr ∧ WFArr b ∧ b.len = a.len ∧ ∀ j, i < j → j < n → (b.mem.getD arr [])[j]? = (a.mem.getD arr [])[j]? := by
    intro a b p y h hlen hp hpl he
    obtain ⟨b', h1, h2, h3, h4, h5, h6, h7⟩ := store_spec h p y hpl
    rw [he] at h1
    cases h1
    refine ⟨by rw [h5, h6]; exact hlen, h6, h2, h5, fun j hj hjn => ?_⟩
    by_cases hr : a.arr = arr
    · have e1 : b.mem.getD arr [] = b.cells := by rw [ArrV.cells, h6, hr]
      have e2 : a.mem.getD arr [] = a.cells := by rw [ArrV.cells, hr]
      rw [e1, e2, h7, List.getElem?_set_ne (by omega)]
    · by_cases hb : arr < a.mem.length
      · simp only [List.getD]; rw [h3.rest arr hb (Ne.symm hr)]
      · have e : b.mem = a.mem.set a.arr (a.cells.set p y) := by
          rw [ArrV.store, if_pos hpl] at he
          cases he; rfl
        simp only [List.getD]
        rw [e, List.getElem?_set_ne hr]
  cases o with
  | append x =>
    cases he
    obtain ⟨h1, h2, h3⟩ := wf_cells h
    unfold ArrV.append
    by_cases hcap : a.len < a.cells.length
    · rw [if_pos hcap]
      refine ⟨fun hr => by have := hlen hr; show n ≤ a.len + 1; omega, fun j hj hjn => ?_⟩
      by_cases hr : a.arr = arr
      · have := hlen hr
        subst hr
        simp only [List.getD]
        rw [List.getElem?_set_self h3, h1]
        simp only [Option.getD_some]
        rw [List.getElem?_set_ne (by omega)]
      · simp only [List.getD]
        rw [List.getElem?_set_ne hr]
    · rw [if_neg hcap]
      refine ⟨fun hr => by simp only at hr; omega, fun j _ _ => ?_⟩
      simp only [List.getD]
      rw [List.getElem?_append_left ha]
  | set p y =>
    by_cases hp : p < a.len
    · obtain ⟨h1, -, -, -, h2⟩ := store h hlen hc hp he
      exact ⟨h1, h2⟩
    · simp [ArrV.op, ArrV.store, hp] at he
  | swap p q =>
    simp only [ArrV.op] at he
    have hv := view_length h
    cases hx : a.view[p]? with
    | none => simp [hx] at he
    | some x =>
      cases hy : a.view[q]? with
      | none => simp [hx, hy] at he
      | some y =>
        have hp := (List.getElem?_eq_some_iff.1 hx).1
        have hq := (List.getElem?_eq_some_iff.1 hy).1
        simp only [hx, hy] at he
        obtain ⟨c, hcs, -⟩ := store_spec h p y (by omega)
        rw [hcs] at he
        obtain ⟨h1, h2, h3, h4, h5⟩ := store h hlen hc.1 (by omega) hcs
        obtain ⟨k1, -, -, -, k5⟩ := store h3 h1 hc.2 (by omega) he
        exact ⟨k1, fun j hj hjn => by rw [k5 j hj hjn, h5 j hj hjn]⟩
  | insert => exact hc.elim
  | delete => exact hc.elim

theorem calm_ops [HasNil α] (grow : Nat → Nat) {arr n i : Nat} (hi : i < n) : ∀ (os : List (SliceOp α)) {a b : ArrV α}, WFArr a → (a.arr = arr → n ≤ a.len) →
    arr < a.mem.length → (∀ o ∈ os, Calm i o) → a.ops grow os = .ok b →
    (b.arr = arr → n ≤ b.len) ∧ arr < b.mem.length ∧ ∀ j, i < j → j < n → (b.mem.getD arr [])[j]? = (a.mem.getD arr [])[j]?
  | [], a, b, _, h2, h3, _, he => by cases he; exact ⟨h2, h3, fun _ _ _ => rfl⟩
  | o :: os, a, b, h1, h2, h3, hc, he => by
    rcases tracks_op grow h1 o with ⟨c, k1, -, k3, k4⟩ | ⟨k1, -⟩
    · simp only [ArrV.ops, k1, R.bind_ok] at he
      obtain ⟨g1, g2⟩ := calm_op grow hi h1 h2 (hc o (by simp)) k1 h3
      have := k4.more
      obtain ⟨m1, m2, m3⟩ := calm_ops grow hi os k3 g1 (by omega) (fun o ho => hc o (by simp [ho])) he
      exact ⟨m1, m2, fun j hj hjn => by rw [m3 j hj hjn, g2 j hj hjn]⟩
    · simp only [ArrV.ops, k1] at he
      cases he

/-- a loop over the array itself, with a calm callback -/
theorem range_snapshot [HasNil α] (grow : Nat → Nat) (cb : ArrCallback σ α) (s : σ) (a : ArrV α) (h : WFArr a) (hcb : CalmCallback cb) :
    outcome (rangeArrayMut grow cb s a) = snapshotLoop cb a.view.zipIdx s a.view := by
  have hl := view_length h
  have := rangeSlice_snapshot grow cb a.arr a.len (fun b _ => (b.arr = a.arr → a.len ≤ b.len) ∧ a.arr < b.mem.length) (by
    intro s i x b c hb hi hw he hgo hf
    rcases hcb s i x b.view with hfalse | hcalm
    · rw [hgo] at hfalse; cases hfalse
    · obtain ⟨g1, g2, g3⟩ := calm_ops grow hi _ hw hb.1 hb.2 hcalm he
      exact ⟨⟨g1, g2⟩, g3⟩) a.view 0 s a (by omega) h ⟨fun _ => Nat.le_refl _, (wf_cells h).2.2⟩ (view_ahead h)
  rw [hl] at this
  exact this

/-! ## deleting while iterating -/

theorem delete_keeps [HasNil α] {a b : ArrV α} (h : WFArr a) {pos : Nat} (he : a.delete pos = .ok b) : b.arr = a.arr ∧ b.cells.length = a.cells.length := by
  unfold ArrV.delete at he
  by_cases hp : pos < a.len
  · obtain ⟨c, h1, h2, h3, h4, h5, h6, h7⟩ := store_spec h pos HasNil.nilv hp
    have h8 := wf_cells h2
    have hv := view_length h2
    rw [h1, R.bind_ok, ArrV.copy, if_pos (by omega)] at he
    simp only [R.bind_ok, R.pure_eq, R.ok.injEq] at he
    subst he
    refine ⟨h6, ?_⟩
    show ((c.fill _).mem.getD c.arr []).length = _
    have hg : ∀ ys : List α, (c.mem.set c.arr ys).getD c.arr [] = ys := by intro ys; simp [List.getD, h8.2.2]
    simp only [ArrV.fill, hg]
    rw [List.length_append, copyAt_length _ _ _ (by omega), List.length_drop, hv]
    have h9 : c.cells.length = a.cells.length := by rw [h7]; simp
    omega
  · rw [ArrV.store, if_neg hp] at he
    cases he

theorem op_keeps [HasNil α] (grow : Nat → Nat) {a b : ArrV α} (h : WFArr a) {o : SliceOp α} (ho : NotLonger o) (he : a.op grow o = .ok b) :
    WFArr b ∧ b.arr = a.arr ∧ b.cells.length = a.cells.length := by
  have hw : WFArr b := by
    rcases tracks_op grow h o with ⟨c, h1, -, h2, -⟩ | ⟨h1, -⟩
    · rw [h1] at he; cases he; exact h2
    · rw [h1] at he; cases he
  refine ⟨hw, ?_⟩
  cases o with
  | append x => exact ho.elim
  | insert i x => exact ho.elim
  | delete pos => exact delete_keeps h he
  | set pos x =>
    simp only [ArrV.op] at he
    by_cases hp : pos < a.len
    · obtain ⟨c, h1, -, -, -, -, h6, h7⟩ := store_spec h pos x hp
      rw [h1] at he; cases he
      exact ⟨h6, by rw [h7]; simp⟩
    · rw [ArrV.store, if_neg hp] at he; cases he
  | swap i j =>
    simp only [ArrV.op] at he
    split at he
    · rename_i x y hx hy
      have hi : i < a.len := by have := (List.getElem?_eq_some_iff.1 hx).1; rwa [view_length h] at this
      have hj : j < a.len := by have := (List.getElem?_eq_some_iff.1 hy).1; rwa [view_length h] at this
      obtain ⟨c, h1, h2, -, -, h5, h6, h7⟩ := store_spec h i y hi
      obtain ⟨d, g1, -, -, -, -, g6, g7⟩ := store_spec h2 j x (by omega)
      rw [h1, R.bind_ok, g1] at he
      cases he
      exact ⟨g6.trans h6, by rw [g7, h7]; simp⟩
    · cases he

theorem ops_keep [HasNil α] (grow : Nat → Nat) : ∀ (os : List (SliceOp α)) {a b : ArrV α}, WFArr a → (∀ o ∈ os, NotLonger o) → a.ops grow os = .ok b →
    WFArr b ∧ b.arr = a.arr ∧ b.cells.length = a.cells.length
  | [], a, b, h, _, he => by simp only [ArrV.ops] at he; cases he; exact ⟨h, rfl, rfl⟩
  | o :: os, a, b, h, ho, he => by
    simp only [ArrV.ops] at he
    cases hc : a.op grow o with
    | ok c =>
      rw [hc, R.bind_ok] at he
      obtain ⟨h1, h2, h3⟩ := op_keeps grow h (ho o (by simp)) hc
      obtain ⟨g1, g2, g3⟩ := ops_keep grow os h1 (fun o' h' => ho o' (by simp [h'])) he
      exact ⟨g1, g2.trans h2, g3.trans h3⟩
    | err e => rw [hc] at he; cases he
    | panic => rw [hc] at he; cases he
    | diverge => rw [hc] at he; cases he

/-- the rounds of a loop: their indexes; and the child is the element of that index, while there is one and the array is where it was -/
theorem rangeSlice_logged [HasNil α] (grow : Nat → Nat) (cb : ArrCallback σ α) (arr n : Nat) : ∀ (todo : Nat) (s : List (Nat × α × List α) × σ) (a : ArrV α)
    (r : (List (Nat × α × List α) × σ) × ArrV α), todo ≤ n → rangeSlice grow (loggedArr cb) arr n todo s a = .ok r →
    ∃ l, r.1.1 = s.1 ++ l ∧ l.length ≤ todo ∧ l.map Prod.fst = List.range' (n - todo) l.length ∧
      ((∀ s i x xs, (cb s i x xs).2.2 = true) → l.length = todo) ∧
      ((∀ s i x xs, ∀ o ∈ (cb s i x xs).2.1, NotLonger o) → WFArr a → a.arr = arr → ∀ c ∈ l, c.1 < c.2.2.length → c.2.2[c.1]? = some c.2.1)
  | 0, s, a, r, _, h => by
    simp only [rangeSlice] at h; cases h
    exact ⟨[], by simp, by simp, by simp, by simp, by simp⟩
  | todo + 1, s, a, r, hn, h => by
    simp only [rangeSlice] at h
    cases hx : (a.mem.getD arr [])[n - (todo + 1)]? with
    | none => rw [hx] at h; cases h
    | some x =>
      rw [hx] at h
      have hfst : (∀ s i x xs, ∀ o ∈ (cb s i x xs).2.1, NotLonger o) → WFArr a → a.arr = arr → n - (todo + 1) < a.view.length → a.view[n - (todo + 1)]? = some x := by
        intro _ hw ha hl
        subst ha
        rw [view_length hw] at hl
        rw [ArrV.view, List.getElem?_take_of_lt hl]
        exact hx
      cases ho : a.ops grow (loggedArr cb s (n - (todo + 1)) x a.view).2.1 with
      | ok b =>
        simp only [ho, R.bind_ok] at h
        by_cases hg : (loggedArr cb s (n - (todo + 1)) x a.view).2.2 = true
        · simp only [if_pos hg] at h
          obtain ⟨l, h1, h2, h3, h4, h5⟩ := rangeSlice_logged grow cb arr n todo _ b r (by omega) h
          refine ⟨(n - (todo + 1), x, a.view) :: l, by rw [h1]; simp [loggedArr], by simp; omega, ?_, fun hgo => by simp [h4 hgo], fun hc hw ha => ?_⟩
          · simp only [List.map_cons, List.length_cons, List.range'_succ, h3]
            rw [show n - (todo + 1) + 1 = n - todo by omega]
          · obtain ⟨g1, g2, -⟩ := ops_keep grow _ hw (hc _ _ _ _) ho
            intro c hcl
            rcases List.mem_cons.1 hcl with rfl | hcl
            · exact hfst hc hw ha
            · exact h5 hc g1 (g2.trans ha) c hcl
        · simp only [if_neg hg] at h
          cases h
          refine ⟨[(n - (todo + 1), x, a.view)], rfl, by simp, by simp, fun hgo => absurd (hgo _ _ _ _) hg, fun hc hw ha c hcl => ?_⟩
          rw [List.mem_singleton.1 hcl]
          exact hfst hc hw ha
      | err e => simp only [ho] at h; cases h
      | panic => simp only [ho] at h; cases h
      | diverge => simp only [ho] at h; cases h

theorem everySecond_two (l : List α) : ∀ i, 2 * i < l.length → everySecond (l.take (2 * i)) ++ (l.drop (2 * i)).eraseIdx 0 = everySecond (l.take (2 * (i + 1))) ++ l.drop (2 * (i + 1)) := by
  induction l using everySecond.induct with
  | case1 x y l ih =>
    intro i hi
    cases i with
    | zero => simp [everySecond]
    | succ i =>
      have e1 : 2 * (i + 1) = 2 * i + 1 + 1 := by omega
      have e2 : 2 * (i + 1 + 1) = 2 * (i + 1) + 1 + 1 := by omega
      rw [e2, e1]
      simp only [List.take_succ_cons, everySecond, List.drop_succ_cons, List.cons_append]
      rw [ih i (by simp at hi; omega), ← e1]
  | case2 l hl =>
    intro i hi
    match l, hl with
    | [], _ => simp at hi
    | [x], _ =>
      have : i = 0 := by simp at hi; omega
      subst this
      simp [everySecond]
    | x :: y :: l, hl => exact absurd rfl (hl x y l)

theorem everySecond_take (l : List α) : ∀ i, 2 * i ≤ l.length → (everySecond (l.take (2 * i))).length = i := by
  induction l using everySecond.induct with
  | case1 x y l ih =>
    intro i hi
    cases i with
    | zero => rfl
    | succ i =>
      have e1 : 2 * (i + 1) = 2 * i + 1 + 1 := by omega
      rw [e1]
      simp only [List.take_succ_cons, everySecond, List.length_cons]
      rw [ih i (by simp at hi; omega)]
  | case2 l hl =>
    intro i hi
    match l, hl with
    | [], _ =>
      have : i = 0 := by simp at hi; omega
      subst this; rfl
    | [x], _ =>
      have : i = 0 := by simp at hi; omega
      subst this; rfl
    | x :: y :: l, hl => exact absurd rfl (hl x y l)

theorem everySecond_length (l : List α) : (everySecond l).length = l.length / 2 := by
  induction l using everySecond.induct with
  | case1 x y l ih => simp only [everySecond, List.length_cons, ih]; omega
  | case2 l hl =>
    match l, hl with
    | [], _ => simp [everySecond]
    | [x], _ => simp [everySecond]
    | x :: y :: l, hl => exact absurd rfl (hl x y l)

theorem rangeSlice_deleter [HasNil α] (grow : Nat → Nat) (xs : List α) (arr : Nat) : ∀ (todo i : Nat) (a : ArrV α), i + todo = xs.length → WFArr a → a.arr = arr →
    xs.length ≤ a.cells.length → a.view = everySecond (xs.take (2 * i)) ++ xs.drop (2 * i) →
    outcome (rangeSlice grow deleter arr xs.length todo () a) = .ok ((), everySecond xs)
  | 0, i, a, hi, hw, ha, hc, hv => by
    simp only [rangeSlice, outcome, hv]
    rw [List.take_of_length_le (by omega), List.drop_of_length_le (by omega), List.append_nil]
  | todo + 1, i, a, hi, hw, ha, hc, hv => by
    have hidx : xs.length - (todo + 1) = i := by omega
    rw [rangeSlice, hidx]
    have hx : (a.mem.getD arr [])[i]? = some (a.cells[i]'(by omega)) := by
      rw [← ha]; show a.cells[i]? = _; simp
    rw [hx]
    simp only [deleter]
    by_cases hd : i < a.view.length
    · rw [if_pos hd]
      have h2 : 2 * i < xs.length := by
        rw [hv] at hd
        by_cases h : 2 * i ≤ xs.length
        · rw [List.length_append, everySecond_take _ _ h, List.length_drop] at hd
          omega
        · rw [List.length_append, List.length_drop, everySecond_length, List.length_take] at hd
          omega
      rcases tracks_ops grow [SliceOp.delete i] hw with ⟨b, k1, k2, k3, k4⟩ | ⟨k1, k2⟩
      · rw [k1, R.bind_ok, if_pos trivial]
        have hb : a.delete i = .ok b := by
          have := k1
          simp only [ArrV.ops, ArrV.op] at this
          cases hh : a.delete i with
          | ok b' => rw [hh] at this; simpa using this
          | err e => rw [hh] at this; cases this
          | panic => rw [hh] at this; cases this
          | diverge => rw [hh] at this; cases this
        obtain ⟨m1, m2⟩ := delete_keeps hw hb
        refine rangeSlice_deleter grow xs arr todo (i + 1) b (by omega) k3 (m1.trans ha) (by omega) ?_
        simp only [listOps, listOp, if_pos hd, R.ok.injEq] at k2
        rw [← k2, hv]
        have hl := everySecond_take xs i (by omega)
        rw [List.eraseIdx_append_of_length_le (by omega), hl, Nat.sub_self]
        exact everySecond_two xs i h2
      · simp [listOps, listOp, if_pos hd] at k2
    · rw [if_neg hd]
      have h2 : xs.length ≤ 2 * i := by
        rw [hv] at hd
        by_cases h : 2 * i ≤ xs.length
        · rw [List.length_append, everySecond_take _ _ h, List.length_drop] at hd
          omega
        · omega
      simp only [ArrV.ops, R.bind_ok, if_true]
      refine rangeSlice_deleter grow xs arr todo (i + 1) a (by omega) hw ha hc ?_
      rw [hv, List.take_of_length_le (by omega), List.drop_of_length_le (by omega), List.take_of_length_le (by omega), List.drop_of_length_le (by omega)]

/-! ## objects -/

/-- an object whose keys are distinct -/
def IsMap (v : V) : Prop := ∃ n kvs low, v = .obj n kvs low ∧ (keys kvs).Nodup

theorem mapOp_set {E : Env} {v : V} (h : IsMap v) (k : Bytes) (c : V) :
    IsMap ((MapOp.set k c).run E v) ∧ ∀ k', memberAt k' ((MapOp.set k c).run E v) = if k = k' then some c else memberAt k' v := by
  obtain ⟨n, kvs, low, rfl, hn⟩ := h
  refine ⟨⟨_, _, _, rfl, nodup_assign hn⟩, fun k' => ?_⟩
  simp only [memberAt, MapOp.run, setKey, entries, lookup_assign]
  by_cases hk : k = k'
  · simp [hk]
  · simp [hk]

theorem mapOp_del {E : Env} {v : V} (h : IsMap v) (k : Bytes) :
    IsMap ((MapOp.del k).run E v) ∧ ∀ k', memberAt k' ((MapOp.del k).run E v) = if k = k' then none else memberAt k' v := by
  obtain ⟨n, kvs, low, rfl, hn⟩ := h
  simp only [MapOp.run, delKey, findKey]
  by_cases hs : (lookup k kvs).isSome = true
  · simp only [hs, if_true]
    refine ⟨⟨_, _, _, rfl, nodup_erase hn⟩, fun k' => ?_⟩
    simp only [memberAt, entries, lookup_erase _ _ _ hn]
    by_cases hk : k = k' <;> simp [hk]
  · simp only [hs, Bool.not_false, if_true]
    refine ⟨⟨_, _, _, rfl, hn⟩, fun k' => ?_⟩
    by_cases hk : k = k'
    · subst hk
      rw [if_pos rfl]
      cases hl : lookup k kvs with
      | none => show (lookup k kvs).map Ent.v = none; rw [hl]; rfl
      | some e => rw [hl] at hs; exact absurd rfl hs
    · rw [if_neg hk]; rfl

theorem mapOp_run {E : Env} {v : V} (h : IsMap v) (o : MapOp) : IsMap (o.run E v) := by
  cases o with
  | set k c => exact (mapOp_set h k c).1
  | del k => exact (mapOp_del h k).1

/-- members that are not decided yet are as they were, the others as decided; the keys seen and those to come are all keys -/
structure Midway (f : Bytes → V → Fate) (v0 : V) (s : List Bytes) (v : V) (todo : List Bytes) : Prop where
  map : IsMap v
  nodup : todo.Nodup
  same : ∀ k ∈ todo, memberAt k v = memberAt k v0 ∧ (memberAt k v0).isSome = true
  decided : ∀ k, k ∉ todo → memberAt k v = fated f k (memberAt k v0)
  seen : (s ++ todo).Perm (keys (entries v0))

theorem midway_step {E : Env} {f : Bytes → V → Fate} {v0 : V} {s : List Bytes} {v : V} {todo : List Bytes} (h : Midway f v0 s v todo) {k : Bytes} {c : V}
    (hk : k ∈ todo) (hc : memberAt k v0 = some c) :
    Midway f v0 (s ++ [k]) ((rewriter f s k c v).2.1.foldl (fun v o => o.run E v) v) (todo.filter (· ≠ k)) := by
  have hp : todo.Perm (k :: todo.filter (· ≠ k)) := by
    have h1 := List.perm_cons_erase hk
    rw [h.nodup.erase_eq_filter] at h1
    have h2 : (todo.filter fun x => x != k) = todo.filter (· ≠ k) := by
      congr 1; funext x; by_cases hx : x = k <;> simp [hx]
    rwa [h2] at h1
  have hm : ∀ k', k' ∈ todo.filter (· ≠ k) ↔ k' ∈ todo ∧ k' ≠ k := by intro k'; simp
  have key : ∀ w : V, IsMap w → (∀ k', memberAt k' w = if k = k' then fated f k (some c) else memberAt k' v) → Midway f v0 (s ++ [k]) w (todo.filter (· ≠ k)) := by
    intro w hw hmem
    refine ⟨hw, h.nodup.filter _, fun k' hk' => ?_, fun k' hk' => ?_, ?_⟩
    · rw [hm] at hk'
      rw [hmem, if_neg (Ne.symm hk'.2)]
      exact h.same k' hk'.1
    · rw [hmem]
      by_cases he : k = k'
      · subst he; rw [if_pos rfl, hc]
      · rw [if_neg he]
        refine h.decided k' fun hin => hk' ((hm k').2 ⟨hin, Ne.symm he⟩)
    · rw [List.append_assoc]
      exact ((List.Perm.append_left s hp).symm).trans h.seen
  have hv : memberAt k v = some c := by rw [(h.same k hk).1, hc]
  unfold rewriter
  cases hf : f k c with
  | keep =>
    refine key v h.map fun k' => ?_
    by_cases he : k = k'
    · subst he; simp [fated, hf, hv]
    · simp [he]
  | replace c' =>
    obtain ⟨g1, g2⟩ := mapOp_set (E := E) h.map k c'
    refine key _ g1 fun k' => ?_
    refine (g2 k').trans ?_
    simp [fated, hf]
  | remove =>
    obtain ⟨g1, g2⟩ := mapOp_del (E := E) h.map k
    refine key _ g1 fun k' => ?_
    refine (g2 k').trans ?_
    simp [fated, hf]

theorem foldl_op_v (E : Env) : ∀ (os : List MapOp) (it : MapIter), (os.foldl (MapIter.op E) it).v = os.foldl (fun v o => o.run E v) it.v
  | [], _ => rfl
  | o :: os, it => by
    simp only [List.foldl_cons]
    rw [foldl_op_v E os]
    cases o <;> rfl

/-- the iteration after the callback `rewriter` -/
theorem rewriter_iter {E : Env} {f : Bytes → V → Fate} {s : List Bytes} {k : Bytes} {c : V} {it : MapIter} (hk : (lookup k (entries it.v)).isSome = true)
    (hf : it.fresh = []) :
    let it' := (rewriter f s k c it.v).2.1.foldl (MapIter.op E) { it with pending := it.pending.filter (· ≠ k), fresh := it.fresh.filter (· ≠ k) }
    it'.fresh = [] ∧ it'.pending = it.pending.filter (· ≠ k) := by
  unfold rewriter
  cases f k c with
  | keep => exact ⟨by simp [hf], rfl⟩
  | replace c' => simp [MapIter.op, hk, hf]
  | remove =>
    refine ⟨by simp [MapIter.op, hf], ?_⟩
    simp only [List.foldl_cons, List.foldl_nil, MapIter.op, List.filter_filter]
    congr 1
    funext x
    simp

theorem rangeMap_rewriter {E : Env} {f : Bytes → V → Fate} {v0 : V} {s : List Bytes} {it : MapIter} {r : List Bytes × V} (hr : RangeMap E (rewriter f) s it r)
    (h : Midway f v0 s it.v it.pending) (hf : it.fresh = []) : Midway f v0 r.1 r.2 [] := by
  induction hr with
  | done s it hp => rw [hp] at h; exact h
  | next s it k e r hk he hgo _ ih =>
    have hk : k ∈ it.pending := by
      rcases hk with hk | hk
      · exact hk
      · rw [hf] at hk; cases hk
    have hc : memberAt k v0 = some e.v := by
      rw [← (h.same k hk).1, memberAt, he]; rfl
    have hi := rewriter_iter (E := E) (f := f) (s := s) (k := k) (c := e.v) (it := it) (by rw [he]; rfl) hf
    refine ih ?_ hi.1
    rw [foldl_op_v, hi.2]
    exact midway_step h hk hc
  | stop s it k e hk he hgo => cases hgo

theorem midway_start {f : Bytes → V → Fate} {v : V} (h : IsMap v) : Midway f v [] v ((entries v).map Ent.key) := by
  obtain ⟨n, kvs, low, rfl, hn⟩ := h
  refine ⟨⟨n, kvs, low, rfl, hn⟩, hn, fun k hk => ⟨rfl, ?_⟩, fun k hk => ?_, .refl _⟩
  · have : (lookup k kvs).isSome = true := lookup_isSome.2 hk
    simp only [memberAt, entries]
    cases hl : lookup k kvs with
    | none => rw [hl] at this; cases this
    | some e => rfl
  · have : lookup k kvs = none := lookup_none.2 hk
    simp only [memberAt, entries, this]
    rfl

/-- a loop over a map ends for some choice of keys, whatever the callback does -/
theorem rangeMap_exists {E : Env} {cb : ObjCallback σ} : ∀ (n : Nat) (s : σ) (it : MapIter), it.pending.length ≤ n → IsMap it.v →
    (∀ k ∈ it.pending, (memberAt k it.v).isSome = true) → ∃ r, RangeMap E cb s it r
  | n, s, it, hn, hm, hp => by
    cases hpd : it.pending with
    | nil => exact ⟨_, .done s it hpd⟩
    | cons k rest =>
      have hk := hp k (by rw [hpd]; simp)
      cases he : lookup k (entries it.v) with
      | none => rw [memberAt, he] at hk; cases hk
      | some e =>
        cases hgo : (cb s k e.v it.v).2.2 with
        | false => exact ⟨_, .stop s it k e (.inl (by rw [hpd]; simp)) he hgo⟩
        | true =>
          have step : ∀ (os : List MapOp) (it : MapIter), IsMap it.v → (∀ k ∈ it.pending, (memberAt k it.v).isSome = true) →
              IsMap (os.foldl (MapIter.op E) it).v ∧ (∀ k ∈ (os.foldl (MapIter.op E) it).pending, (memberAt k (os.foldl (MapIter.op E) it).v).isSome = true) ∧
                (os.foldl (MapIter.op E) it).pending.length ≤ it.pending.length := by
            intro os
            induction os with
            | nil => intro it h1 h2; exact ⟨h1, h2, Nat.le_refl _⟩
            | cons o os ih =>
              intro it h1 h2
              have hl : (it.op E o).pending.length ≤ it.pending.length := by
                cases o with
                | set => exact Nat.le_refl _
                | del k => exact List.length_filter_le _ _
              obtain ⟨g1, g2, g3⟩ := ih (it.op E o) (by cases o <;> exact mapOp_run h1 _) (by
                intro k hk
                cases o with
                | set k' c =>
                  simp only [MapIter.op] at hk ⊢
                  rw [(mapOp_set h1 k' c).2]
                  by_cases hkk : k' = k
                  · simp [hkk]
                  · rw [if_neg hkk]; exact h2 k hk
                | del k' =>
                  simp only [MapIter.op, List.mem_filter, decide_eq_true_eq] at hk ⊢
                  rw [(mapOp_del h1 k').2, if_neg (Ne.symm hk.2)]
                  exact h2 k hk.1)
              exact ⟨g1, g2, Nat.le_trans g3 hl⟩
          obtain ⟨g1, g2, g3⟩ := step (cb s k e.v it.v).2.1 { it with pending := it.pending.filter (· ≠ k), fresh := it.fresh.filter (· ≠ k) } hm (by
            intro k' hk'
            exact hp k' ((List.mem_filter.1 hk').1))
          have hlt : (it.pending.filter (· ≠ k)).length < it.pending.length := by
            rw [hpd]
            have : (k :: rest).filter (· ≠ k) = rest.filter (· ≠ k) := by simp
            rw [this]
            have := List.length_filter_le (fun x => decide (x ≠ k)) rest
            simp only [List.length_cons]
            omega
          cases n with
          | zero => rw [hpd] at hn; simp at hn
          | succ n =>
            obtain ⟨r, hr⟩ := rangeMap_exists n (cb s k e.v it.v).1 _ (by simp only at g3; omega) g1 g2
            exact ⟨r, .next s it k e r (.inl (by rw [hpd]; simp)) he hgo hr⟩

theorem visitMut_rewriter {E : Env} {f : Bytes → V → Fate} {v0 : V} : ∀ (es : List Ent) (s : List Bytes) (v : V), (∀ e ∈ es, memberAt e.key v0 = some e.v) →
    Midway f v0 s v (es.map Ent.key) →
    Midway f v0 (visitMut E (rewriter f) es s v).1 (visitMut E (rewriter f) es s v).2 [] ∧ (visitMut E (rewriter f) es s v).1 = s ++ es.map Ent.key
  | [], s, v, _, h => ⟨h, by simp [visitMut]⟩
  | e :: es, s, v, hm, h => by
    have hn : ((e :: es).map Ent.key).filter (· ≠ e.key) = es.map Ent.key := by
      have := h.nodup
      rw [List.map_cons, List.nodup_cons] at this
      rw [List.map_cons, List.filter_cons_of_neg (by simp)]
      exact List.filter_eq_self.2 fun a ha => by
        simp only [decide_eq_true_eq]
        rintro rfl
        exact this.1 ha
    have hs := midway_step (E := E) h (k := e.key) (c := e.v) (by simp) (hm e (by simp))
    rw [hn] at hs
    obtain ⟨h1, h2⟩ := visitMut_rewriter (E := E) es (s ++ [e.key]) _ (fun x hx => hm x (by simp [hx])) hs
    rw [visitMut]
    have hgo : (rewriter f s e.key e.v v).2.2 = true := rfl
    have hst : (rewriter f s e.key e.v v).1 = s ++ [e.key] := rfl
    simp only [hgo, if_true, hst]
    exact ⟨h1, by rw [h2]; simp⟩

theorem memberAt_isSome {v : V} {k : Bytes} : (memberAt k v).isSome = true ↔ k ∈ keys (entries v) := by
  rw [memberAt, Option.isSome_map]
  exact lookup_isSome

theorem midway_stopped {f : Bytes → V → Fate} {go : Bytes → V → Bool} {v0 v : V} {s todo : List Bytes} (hn : (keys (entries v0)).Nodup) (h : Midway f v0 s v todo)
    (hu : (todo = [] ∧ ∀ k ∈ s, ∀ c, memberAt k v0 = some c → go k c = true) ∨
      ∃ l k c, s = l ++ [k] ∧ memberAt k v0 = some c ∧ go k c = false ∧ ∀ k' ∈ l, ∀ c', memberAt k' v0 = some c' → go k' c' = true) : StoppedBy f go v0 (s, v) := by
  have hnd := h.seen.nodup_iff.2 hn
  rw [List.nodup_append] at hnd
  refine ⟨hnd.1, fun k hk => memberAt_isSome.2 (h.seen.mem_iff.1 (List.mem_append_left _ hk)), fun k hk => h.decided k fun ht => hnd.2.2 k hk k ht rfl, fun k hk => ?_, ?_⟩
  · by_cases ht : k ∈ todo
    · exact (h.same k ht).1
    · show memberAt k v = _
      rw [h.decided k ht]
      cases hm : memberAt k v0 with
      | none => rfl
      | some c =>
        have := h.seen.mem_iff.2 (memberAt_isSome.1 (show (memberAt k v0).isSome = true by rw [hm]; rfl))
        rcases List.mem_append.1 this with h1 | h1
        · exact absurd h1 hk
        · exact absurd h1 ht
  · rcases hu with ⟨rfl, hg⟩ | hu
    · have hall : ∀ k, (memberAt k v0).isSome = true → k ∈ s := fun k hk => by
        have := h.seen.mem_iff.2 (memberAt_isSome.1 hk)
        simpa using this
      exact .inl ⟨hall, fun k c hc => hg k (hall k (by rw [hc]; rfl)) c hc⟩
    · exact .inr hu

theorem rangeMap_stopper {E : Env} {f : Bytes → V → Fate} {go : Bytes → V → Bool} {v0 : V} {s : List Bytes} {it : MapIter} {r : List Bytes × V}
    (hn : (keys (entries v0)).Nodup) (hr : RangeMap E (stopper f go) s it r)
    (h : Midway f v0 s it.v it.pending) (hf : it.fresh = []) (hg : ∀ k ∈ s, ∀ c, memberAt k v0 = some c → go k c = true) : StoppedBy f go v0 r := by
  induction hr with
  | done s it hp => exact midway_stopped hn h (.inl ⟨hp, hg⟩)
  | next s it k e r hk he hgo _ ih =>
    have hk : k ∈ it.pending := by
      rcases hk with hk | hk
      · exact hk
      · rw [hf] at hk; cases hk
    have hc : memberAt k v0 = some e.v := by
      rw [← (h.same k hk).1, memberAt, he]; rfl
    have hi := rewriter_iter (E := E) (f := f) (s := s) (k := k) (c := e.v) (it := it) (by rw [he]; rfl) hf
    refine ih ?_ hi.1 ?_
    · show Midway f v0 _ ((rewriter f s k e.v it.v).2.1.foldl (MapIter.op E) _).v _
      rw [foldl_op_v]
      have := midway_step (E := E) h hk hc
      rw [← hi.2] at this
      exact this
    · intro k' hk' c hc'
      rcases List.mem_append.1 (show k' ∈ s ++ [k] from hk') with h1 | h1
      · exact hg k' h1 c hc'
      · obtain rfl : k' = k := by simpa using h1
        rw [hc] at hc'
        cases hc'
        exact hgo
  | stop s it k e hk he hgo =>
    have hk : k ∈ it.pending := by
      rcases hk with hk | hk
      · exact hk
      · rw [hf] at hk; cases hk
    have hc : memberAt k v0 = some e.v := by
      rw [← (h.same k hk).1, memberAt, he]; rfl
    exact midway_stopped hn (midway_step (E := E) h hk hc) (.inr ⟨s, k, e.v, rfl, hc, hgo, hg⟩)

theorem visitMut_stopper {E : Env} {f : Bytes → V → Fate} {go : Bytes → V → Bool} {v0 : V} (hn0 : (keys (entries v0)).Nodup) :
    ∀ (es : List Ent) (s : List Bytes) (v : V), (∀ e ∈ es, memberAt e.key v0 = some e.v) → Midway f v0 s v (es.map Ent.key) →
    (∀ k ∈ s, ∀ c, memberAt k v0 = some c → go k c = true) →
    StoppedBy f go v0 (visitMut E (stopper f go) es s v) ∧
      (visitMut E (stopper f go) es s v).1 = visit (fun s k c => (s ++ [k], go k c)) (es.map fun e => (e.key, e.v)) s
  | [], s, v, _, h, hg => ⟨midway_stopped hn0 h (.inl ⟨rfl, hg⟩), by simp [visitMut, visit]⟩
  | e :: es, s, v, hm, h, hg => by
    have hn : ((e :: es).map Ent.key).filter (· ≠ e.key) = es.map Ent.key := by
      have := h.nodup
      rw [List.map_cons, List.nodup_cons] at this
      rw [List.map_cons, List.filter_cons_of_neg (by simp)]
      exact List.filter_eq_self.2 fun a ha => by
        simp only [decide_eq_true_eq]
        rintro rfl
        exact this.1 ha
    have hs := midway_step (E := E) h (k := e.key) (c := e.v) (by simp) (hm e (by simp))
    rw [hn] at hs
    have e1 : (stopper f go s e.key e.v v).1 = s ++ [e.key] := rfl
    have e2 : (stopper f go s e.key e.v v).2.1 = (rewriter f s e.key e.v v).2.1 := rfl
    have e3 : (stopper f go s e.key e.v v).2.2 = go e.key e.v := rfl
    rw [visitMut]
    simp only [e1, e2, e3, List.map_cons, visit]
    cases hgo : go e.key e.v with
    | true =>
      have := visitMut_stopper (E := E) hn0 es (s ++ [e.key]) _ (fun x hx => hm x (by simp [hx])) hs (by
        intro k' hk' c hc'
        rcases List.mem_append.1 hk' with h1 | h1
        · exact hg k' h1 c hc'
        · obtain rfl : k' = e.key := by simpa using h1
          rw [hm e (by simp)] at hc'
          cases hc'
          exact hgo)
      simpa using this
    | false => exact ⟨midway_stopped hn0 hs (.inr ⟨s, e.key, e.v, rfl, hm e (by simp), hgo, hg⟩), by simp⟩

/-! ## any callback on an object -/

theorem foldl_neverSets {E : Env} {k : Bytes} : ∀ (os : List MapOp) (it : MapIter), (∀ d, MapOp.set k d ∉ os) → k ∉ it.fresh → IsMap it.v →
    k ∉ (os.foldl (MapIter.op E) it).fresh ∧ IsMap (os.foldl (MapIter.op E) it).v ∧
    (k ∈ (os.foldl (MapIter.op E) it).pending → k ∈ it.pending ∧ memberAt k (os.foldl (MapIter.op E) it).v = memberAt k it.v) ∧
    (MapOp.del k ∉ os → memberAt k (os.foldl (MapIter.op E) it).v = memberAt k it.v ∧ (k ∈ it.pending → k ∈ (os.foldl (MapIter.op E) it).pending))
  | [], it, _, hf, hm => ⟨hf, hm, fun h => ⟨h, rfl⟩, fun _ => ⟨rfl, id⟩⟩
  | o :: os, it, hs, hf, hm => by
    have hs' : ∀ d, MapOp.set k d ∉ os := fun d h => hs d (List.mem_cons_of_mem _ h)
    simp only [List.foldl_cons]
    cases o with
    | set k' c' =>
      have hne : k' ≠ k := fun h => hs c' (by rw [h]; exact .head _)
      have hv := mapOp_set (E := E) hm k' c'
      have hf' : k ∉ (MapIter.op E it (.set k' c')).fresh := by
        simp only [MapIter.op]
        split
        · exact hf
        · intro h; rcases List.mem_cons.1 h with h | h
          · exact hne h.symm
          · exact hf h
      obtain ⟨g1, g2, g3, g4⟩ := foldl_neverSets os _ hs' hf' hv.1
      have hsame : memberAt k (MapIter.op E it (.set k' c')).v = memberAt k it.v := (hv.2 k).trans (if_neg hne)
      refine ⟨g1, g2, fun h => ⟨(g3 h).1, (g3 h).2.trans hsame⟩, fun h => ?_⟩
      have := g4 fun h' => h (List.mem_cons_of_mem _ h')
      exact ⟨this.1.trans hsame, this.2⟩
    | del k' =>
      have hv := mapOp_del (E := E) hm k'
      have hf' : k ∉ (MapIter.op E it (.del k')).fresh := fun h => hf ((List.mem_filter.1 h).1)
      obtain ⟨g1, g2, g3, g4⟩ := foldl_neverSets os _ hs' hf' hv.1
      refine ⟨g1, g2, fun h => ?_, fun h => ?_⟩
      · obtain ⟨h1, h2⟩ := g3 h
        have h1 : k ∈ it.pending.filter (· ≠ k') := h1
        rw [List.mem_filter] at h1
        have hne : k' ≠ k := fun h => by simp [h] at h1
        exact ⟨h1.1, h2.trans ((hv.2 k).trans (if_neg hne))⟩
      · have hne : k' ≠ k := fun he => h (by rw [he]; exact .head _)
        have := g4 fun h' => h (List.mem_cons_of_mem _ h')
        refine ⟨this.1.trans ((hv.2 k).trans (if_neg hne)), fun hp => this.2 ?_⟩
        exact List.mem_filter.2 ⟨hp, by simpa using Ne.symm hne⟩

theorem visitsOf_append (k : Bytes) (l m : List (Bytes × V × V)) : visitsOf k (l ++ m) = visitsOf k l ++ visitsOf k m := by
  simp [visitsOf]

/-- the state of a loop with respect to a key that is never set: not seen yet, or seen once and not to come again -/
def Once (k : Bytes) (v0 : V) (l : List (Bytes × V × V)) (it : MapIter) : Prop :=
  (visitsOf k l = [] ∧ (k ∈ it.pending → memberAt k it.v = memberAt k v0)) ∨ (∃ c, visitsOf k l = [c] ∧ memberAt k v0 = some c ∧ k ∉ it.pending)

theorem once_step {E : Env} {cb : ObjCallback σ} {k : Bytes} {v0 : V} {l : List (Bytes × V × V)} {s : σ} {it : MapIter} {j : Bytes} {e : Ent}
    (hs : NeverSets cb k) (hm : IsMap it.v) (hf : k ∉ it.fresh) (h : Once k v0 l it) (hj : j ∈ it.pending ∨ j ∈ it.fresh) (he : lookup j (entries it.v) = some e) :
    let it' := (cb s j e.v it.v).2.1.foldl (MapIter.op E) { it with pending := it.pending.filter (· ≠ j), fresh := it.fresh.filter (· ≠ j) }
    IsMap it'.v ∧ k ∉ it'.fresh ∧ Once k v0 (l ++ [(j, e.v, it.v)]) it' := by
  intro it'
  obtain ⟨g1, g2, g3, -⟩ := foldl_neverSets (E := E) (k := k) (cb s j e.v it.v).2.1 { it with pending := it.pending.filter (· ≠ j), fresh := it.fresh.filter (· ≠ j) }
    (fun d => hs s j e.v it.v d) (fun h => hf ((List.mem_filter.1 h).1)) hm
  refine ⟨g2, g1, ?_⟩
  have hp : k ∈ it'.pending → k ∈ it.pending ∧ k ≠ j ∧ memberAt k it'.v = memberAt k it.v := fun h => by
    obtain ⟨h1, h2⟩ := g3 h
    rw [List.mem_filter] at h1
    exact ⟨h1.1, by simpa using h1.2, h2⟩
  unfold Once
  rw [visitsOf_append]
  by_cases hjk : j = k
  · subst hjk
    have hin : j ∈ it.pending := hj.resolve_right hf
    rcases h with ⟨h1, h2⟩ | ⟨c, -, -, h3⟩
    · refine .inr ⟨e.v, by rw [h1]; simp [visitsOf], ?_, fun h => (hp h).2.1 rfl⟩
      rw [← h2 hin, memberAt, he]; rfl
    · exact absurd hin h3
  · have hv : visitsOf k [(j, e.v, it.v)] = [] := by simp [visitsOf, hjk]
    rw [hv, List.append_nil]
    rcases h with ⟨h1, h2⟩ | ⟨c, h1, h2, h3⟩
    · exact .inl ⟨h1, fun h => (hp h).2.2.trans (h2 (hp h).1)⟩
    · exact .inr ⟨c, h1, h2, fun h => h3 (hp h).1⟩

theorem rangeMap_once {E : Env} {cb : ObjCallback σ} {k : Bytes} {v0 : V} (hs : NeverSets cb k) {s : List (Bytes × V × V) × σ} {it : MapIter}
    {r : (List (Bytes × V × V) × σ) × V} (hr : RangeMap E (logged cb) s it r) (hm : IsMap it.v) (hf : k ∉ it.fresh) (h : Once k v0 s.1 it) :
    visitsOf k r.1.1 = [] ∨ ∃ c, visitsOf k r.1.1 = [c] ∧ memberAt k v0 = some c := by
  have last : ∀ l it, Once k v0 l it → visitsOf k l = [] ∨ ∃ c, visitsOf k l = [c] ∧ memberAt k v0 = some c := fun l it h => by
    rcases h with h | ⟨c, h1, h2, -⟩
    · exact .inl h.1
    · exact .inr ⟨c, h1, h2⟩
  induction hr with
  | done s it hp => exact last _ _ h
  | next s it j e r hj he hgo _ ih =>
    obtain ⟨g1, g2, g3⟩ := once_step (E := E) (s := s.2) hs hm hf h hj he
    exact ih g1 g2 g3
  | stop s it j e hj he hgo => exact last _ _ (once_step (E := E) (s := s.2) hs hm hf h hj he).2.2

theorem rangeMap_seen {E : Env} {cb : ObjCallback σ} {s : List (Bytes × V × V) × σ} {it : MapIter} {r : (List (Bytes × V × V) × σ) × V}
    (hr : RangeMap E (logged cb) s it r) (h : ∀ x ∈ s.1, memberAt x.1 x.2.2 = some x.2.1) : ∀ x ∈ r.1.1, memberAt x.1 x.2.2 = some x.2.1 := by
  have add : ∀ (l : List (Bytes × V × V)) (j : Bytes) (e : Ent) (v : V), lookup j (entries v) = some e → (∀ x ∈ l, memberAt x.1 x.2.2 = some x.2.1) →
      ∀ x ∈ l ++ [(j, e.v, v)], memberAt x.1 x.2.2 = some x.2.1 := fun l j e v he h x hx => by
    rcases List.mem_append.1 hx with hx | hx
    · exact h x hx
    · cases List.mem_singleton.1 hx; simp [memberAt, he]
  induction hr with
  | done s it hp => exact h
  | next s it j e r hj he hgo _ ih => exact ih (add _ _ _ _ he h)
  | stop s it j e hj he hgo => exact add _ _ _ _ he h

/-- a member that is neither set nor removed stays, and a loop that is not stopped comes to it -/
theorem rangeMap_untouched {E : Env} {cb : ObjCallback σ} {k : Bytes} {c : V} (hs : NeverSets cb k) (hd : NeverRemoves cb k) {s : List (Bytes × V × V) × σ} {it : MapIter}
    {r : (List (Bytes × V × V) × σ) × V} (hr : RangeMap E (logged cb) s it r) (hm : IsMap it.v) (hf : k ∉ it.fresh)
    (hc : memberAt k it.v = some c) (h : visitsOf k s.1 = [] → k ∈ it.pending) :
    memberAt k r.2 = some c ∧ ((∀ s j d v, (cb s j d v).2.2 = true) → visitsOf k r.1.1 ≠ []) := by
  induction hr with
  | done s it hp =>
    refine ⟨hc, fun _ hv => ?_⟩
    have := h hv
    rw [hp] at this; cases this
  | next s it j e r hj he hgo _ ih =>
    obtain ⟨g1, g2, -, g4⟩ := foldl_neverSets (E := E) (k := k) (cb s.2 j e.v it.v).2.1 { it with pending := it.pending.filter (· ≠ j), fresh := it.fresh.filter (· ≠ j) }
      (fun d => hs s.2 j e.v it.v d) (fun h => hf ((List.mem_filter.1 h).1)) hm
    obtain ⟨g5, g6⟩ := g4 (hd s.2 j e.v it.v)
    refine ih g2 g1 (g5.trans hc) fun hv => g6 ?_
    have hv : visitsOf k (s.1 ++ [(j, e.v, it.v)]) = [] := hv
    rw [visitsOf_append, List.append_eq_nil_iff] at hv
    have hne : k ≠ j := fun hk => by rw [hk] at hv; simp [visitsOf] at hv
    exact List.mem_filter.2 ⟨h hv.1, by simpa using hne⟩
  | stop s it j e hj he hgo =>
    refine ⟨?_, fun hall => absurd (hall s.2 j e.v it.v) (by rw [show (cb s.2 j e.v it.v).2.2 = false from hgo]; simp)⟩
    have := (foldl_neverSets (E := E) (k := k) (cb s.2 j e.v it.v).2.1 it (fun d => hs s.2 j e.v it.v d) hf hm).2.2.2 (hd s.2 j e.v it.v)
    rw [foldl_op_v] at this
    exact this.1.trans hc

theorem visitMut_logged {E : Env} {cb : ObjCallback σ} (hgo : ∀ s j d v, (cb s j d v).2.2 = true) : ∀ (es : List Ent) (s : List (Bytes × V × V) × σ) (v : V),
    (visitMut E (logged cb) es s v).1.1.map (fun x => (x.1, x.2.1)) = s.1.map (fun x => (x.1, x.2.1)) ++ es.map fun e => (e.key, e.v)
  | [], s, v => by simp [visitMut]
  | e :: es, s, v => by
    unfold visitMut
    have h1 : (logged cb s e.key e.v v).2.2 = true := hgo _ _ _ _
    simp only [h1, if_true]
    rw [visitMut_logged hgo es]
    simp [logged]

end JV
