import Verif.Proofs.ChanMut
import Verif.Model.Heap
/-! C99: changing a value while receiving from its channel iterator. -/
namespace JV
open Spec
variable {α : Type}

/-- C99 in full: whatever the caller does to the value, and whenever, the channels give the children of the moment of the call. -/
def C99_statement : Prop :=
  (∀ (α : Type) [HasNil α] (grow : Nat → Nat) (a : ArrV α), WFArr a → ArrDelivers grow Anytime (iterArrayMut a) a.view.zipIdx) ∧
  (∀ (E : Env) (v : V), ObjDelivers E (fun _ _ => True) (iterObjectsMut v) (memberPairs v))

/-- A caller that changes the array only behind what it has received, and appends, gets the elements of the moment of the call. -/
theorem C99_partial [HasNil α] (grow : Nat → Nat) (a : ArrV α) (hw : WFArr a) : ArrDelivers grow CarefulCaller (iterArrayMut a) a.view.zipIdx :=
  careful_delivers grow hw

/-- If the first change comes after the first element, then whatever the changes are, the caller gets the indexes of the moment of the call in order,
and the goroutine is never stuck. -/
theorem C99_indexes [HasNil α] (grow : Nat → Nat) (a : ArrV α) (hw : WFArr a) (n : Nat) (s : ArrIter α) (h : ArrRuns grow Later (iterArrayMut a) n s) :
    (∃ rest, s.got.map Prod.snd ++ rest = List.range a.view.length) ∧ (s.ended = true → s.got.map Prod.snd = List.range a.view.length) ∧
    (s.closed = false → ∃ t, ArrSends s t) ∧ n ≤ 2 * a.view.length + 2 ∧ (s.ended = false → (∃ t, ArrSends s t) ∨ ∃ t, ArrReceives s t) := by
  have hi := iterInv_runs grow Later (fun _ _ h => .inl h) hw h
  have hv := view_length hw
  refine ⟨?_, fun he => ?_, iterInv_goes hi, by rw [hv]; exact iterInv_count hi, iterInv_live hi⟩
  · refine ⟨(s.buf ++ s.held.toList).map Prod.snd ++ (List.range a.view.length).drop s.idx, ?_⟩
    rw [← List.append_assoc, ← List.map_append, ← List.append_assoc, hi.nums]
    have := hi.idx
    rw [show List.range s.idx = (List.range a.view.length).take s.idx by rw [List.take_range]; congr 1; omega, List.take_append_drop]
  · obtain ⟨e1, e2⟩ := hi.ended he
    obtain ⟨e3, e4⟩ := hi.closed e1
    have := hi.nums
    rw [e2, e4, e3] at this
    rw [hv]
    simpa using this

/-- Any array: if its first element is deleted right after the call, the caller may never get that element. -/
theorem C99_missed [HasNil α] (grow : Nat → Nat) (a : ArrV α) (hw : WFArr a) (x : α) (rest : List α) (hx : a.view = x :: rest) :
    ∃ n s, ArrRuns grow (fun s o => s.got = [] ∧ o = .delete 0) (iterArrayMut a) n s ∧ s.ended = true ∧ s.v.view = rest ∧ s.got = rest.zipIdx := by
  have hv := view_length hw
  have hl : 0 < a.len := by rw [← hv, hx]; simp
  obtain ⟨b, h1, h2, h3, -⟩ := delete_spare hw hl
  have hr : b.view = rest := by rw [h3, hx]; rfl
  have hb := view_length h2
  obtain ⟨k, t, g1, g2, g3, g4⟩ := runs_through grow (fun s o => s.got = [] ∧ o = .delete 0) (iterArrayMut a) b.arr b.len b.view _ _
    (((ArrRuns.start (grow := grow) (s := iterArrayMut a)).change (.delete 0) ⟨rfl, rfl⟩ b h1).send (.begin _ rfl)) rfl (by simp [iterArrayMut, hb]) rfl rfl rfl rfl (view_ahead h2)
  exact ⟨k, t, g1, g2, by rw [g3]; exact hr, by rw [g4, hr]; rfl⟩

/-- Any array with two elements or more: if the caller deletes the first one when it has got it, it may get the second one never and the last one
twice. -/
theorem C99_skipped [HasNil α] (grow : Nat → Nat) (a : ArrV α) (hw : WFArr a) (x y : α) (rest : List α) (hx : a.view = x :: y :: rest) :
    ∃ n s, ArrRuns grow (fun s o => s.got = [(x, 0)] ∧ o = .delete 0) (iterArrayMut a) n s ∧ s.ended = true ∧ s.v.view = y :: rest ∧
      s.got = (x, 0) :: (rest ++ [(y :: rest).getLast (by simp)]).zipIdx 1 := by
  have hv := view_length hw
  have hl : a.len = rest.length + 2 := by rw [← hv, hx]; simp
  obtain ⟨b, h1, h2, h3, h4⟩ := delete_spare hw (p := 0) (by omega)
  have hr : b.view = y :: rest := by rw [h3, hx]; rfl
  have hlast : a.view.getLastD HasNil.nilv = (y :: rest).getLast (by simp) := by
    rw [hx, List.getLastD_eq_getLast?, List.getLast?_eq_some_getLast (by simp)]
    simp
  rw [if_neg (by rw [hx]; simp), hlast] at h4
  have hba := (delete_keeps hw h1).1
  have hc : b.cells = y :: (rest ++ [(y :: rest).getLast (by simp)]) ++ spare a := by rw [cells_split, hr, h4]; simp
  have hx0 : (a.mem.getD a.arr [])[0]? = some x := by
    have := view_ahead hw 0 (by omega)
    simpa [hx] using this
  obtain ⟨k, t, g1, g2, g3, g4⟩ := runs_through grow (fun s o => s.got = [(x, 0)] ∧ o = .delete 0) (iterArrayMut a) a.arr a.len
    (rest ++ [(y :: rest).getLast (by simp)]) _ _
    (((((ArrRuns.start (grow := grow) (s := iterArrayMut a)).send (.begin _ rfl)).send (.read _ a.arr a.len x rfl rfl (by simp [iterArrayMut]; omega) hx0)).recv
      (.direct _ _ rfl rfl rfl)).change (.delete 0) ⟨rfl, rfl⟩ b h1) rfl (by simp [iterArrayMut, hl]; omega) rfl rfl rfl rfl (by
        intro j hj
        simp only [iterArrayMut]
        rw [show b.mem.getD a.arr [] = b.cells by rw [ArrV.cells, hba], hc, Nat.add_comm, List.cons_append, List.getElem?_cons_succ,
          List.getElem?_append_left hj])
  exact ⟨k, t, g1, g2, by rw [g3]; exact hr, by rw [g4]; rfl⟩

/-- The same caller may as well get everything: it depends on how fast the goroutine is. -/
theorem C99_schedule [HasNil α] (grow : Nat → Nat) (a : ArrV α) (hw : WFArr a) (x : α) (rest : List α) (hx : a.view = x :: rest) :
    ∃ n s, ArrRuns grow (fun s o => s.got = [(x, 0)] ∧ o = .delete 0) (iterArrayMut a) n s ∧ s.ended = true ∧ s.v.view = rest ∧ s.got = a.view.zipIdx := by
  have hv := view_length hw
  obtain ⟨b, h1, h2, h3, -⟩ := delete_spare hw (p := 0) (by rw [← hv, hx]; simp)
  obtain ⟨k, t, g1, g2⟩ := runs_fill grow (fun s o => s.got = [(x, 0)] ∧ o = .delete 0) (iterArrayMut a) a.arr a.len a.view _ _
    ((ArrRuns.start (grow := grow) (s := iterArrayMut a)).send (.begin _ rfl)) rfl (by simp [iterArrayMut, hv]) rfl (by simp [iterArrayMut, hv]) (view_ahead hw)
  have hb : t.buf = (x, 0) :: rest.zipIdx 1 := by rw [g2]; simp [iterArrayMut, hx]
  have ht : t.v = a ∧ t.hdr = some (a.arr, a.len) ∧ t.held = none ∧ t.idx = a.len ∧ t.closed = false ∧ t.ended = false ∧ t.got = [] := by
    rw [g2]; simp [iterArrayMut, hv]
  obtain ⟨t1, t2, t3, t4, t5, t6, t7⟩ := ht
  obtain ⟨u, e1, e2⟩ := runs_drain grow (fun s o => s.got = [(x, 0)] ∧ o = .delete 0) (iterArrayMut a) (rest.zipIdx 1) _ _
    (((g1.send (.close t a.arr a.len t2 t3 t4 t5)).recv (.recv _ _ _ hb t6)).change (.delete 0) ⟨by simp [t7], rfl⟩ b (by simp only [t1]; exact h1)) rfl t6
  refine ⟨_, _, e1.recv (.finish u (by rw [e2]) (by rw [e2]) (by rw [e2]; exact t6)), rfl, ?_, ?_⟩
  · simp only [e2]; rw [h3, hx]; rfl
  · simp [e2, t7, hx]

/-- Any array: if an element is appended right after the call and nobody receives, the goroutine may be stuck for good. -/
theorem C99_leak [HasNil α] (grow : Nat → Nat) (a : ArrV α) (hw : WFArr a) (x : α) :
    ∃ n s, ArrRuns grow (fun _ o => o = .append x) (iterArrayMut a) n s ∧ s.got = [] ∧ s.closed = false ∧ ¬ ∃ t, ArrSends s t := by
  have hv := view_length hw
  obtain ⟨h1, -, h3, h4⟩ := append_spec grow hw x
  have hA := view_ahead h1
  rw [h3] at hA
  obtain ⟨k, t, g1, g2⟩ := runs_fill grow (fun _ o => o = .append x) (iterArrayMut a) (a.append grow x).arr (a.append grow x).len a.view _ _
    (((ArrRuns.start (grow := grow) (s := iterArrayMut a)).change (.append x) rfl (a.append grow x) rfl).send (.begin _ rfl)) rfl (by simp [iterArrayMut, hv, h4]) rfl
    (by simp [iterArrayMut, hv]) (by
      intro j hj
      have := hA j (by simp; omega)
      simp only [iterArrayMut]
      rw [this, List.getElem?_append_left hj])
  have hx : (t.v.mem.getD (a.append grow x).arr [])[t.idx]? = some x := by
    have := hA a.view.length (by simp)
    simp only [g2, iterArrayMut]
    rw [this]
    simp
  refine ⟨_, _, g1.send (.read t _ (a.append grow x).len x (by rw [g2]) (by rw [g2]; rfl) (by rw [g2]; simp [iterArrayMut, hv, h4]) hx), by rw [g2]; rfl, by rw [g2]; rfl, ?_⟩
  rintro ⟨u, hu⟩
  subst g2
  cases hu with
  | begin h => simp at h
  | read _ _ _ _ h => simp at h
  | send _ _ hb => simp [iterArrayMut, hv] at hb
  | close _ _ _ h => simp at h

/-- A caller that has seen the end of the channel of an object may change the object. -/
theorem C99_objects (E : Env) (v : V) : ObjDelivers E AfterEnd (iterObjectsMut v) (memberPairs v) := obj_delivers E v

/-- Any object: even with all members received, a change may end the program. -/
theorem C99_objects_fatal (E : Env) (v : V) (o : MapOp) :
    ∃ n s, ObjRuns E AfterLast (iterObjectsMut v) n s ∧ s.got = memberPairs v ∧ s.v = o.run E v ∧ s.dead = true := by
  have hp : memberPairs v = (mapEntries v).map fun e => (e.key, e.v) := by cases v <;> rfl
  obtain ⟨t, g1, g2⟩ := obj_last_run E AfterLast (iterObjectsMut v) (mapEntries v) _ _
    ((ObjRuns.start).send (.begin (iterObjectsMut v) (mapEntries v) rfl (List.Perm.refl _) rfl)) rfl rfl rfl rfl rfl
  subst g2
  exact ⟨_, _, g1.change o (by simp [AfterLast, iterObjectsMut]) rfl, by simp [iterObjectsMut, hp], rfl, rfl⟩

theorem C99_counterexample : ¬ C99_statement := by
  intro h
  obtain ⟨n, s, h1, h2, h3, h4⟩ := C99_missed (α := Ptr) (fun n => 2 * n) ⟨[[some 1, some 2]], 0, 2⟩ ⟨_, rfl, by decide⟩ (some 1) [some 2] rfl
  have : ArrRuns (fun n => 2 * n) Anytime (iterArrayMut (α := Ptr) ⟨[[some 1, some 2]], 0, 2⟩) n s := by
    clear h2 h3 h4
    induction h1 with
    | start => exact .start
    | send _ hs ih => exact .send ih hs
    | recv _ hs ih => exact .recv ih hs
    | change _ o _ b he ih => exact .change ih o trivial b he
  have := (h.1 Ptr (fun n => 2 * n) ⟨[[some 1, some 2]], 0, 2⟩ ⟨_, rfl, by decide⟩ n s this).2.1 h2
  rw [h4] at this
  exact absurd this (by decide)

/-- a careful caller: it gets the first of two elements, replaces it and appends one, and gets the second -/
example : ∃ s, ArrRuns (fun n => 2 * n) CarefulCaller (iterArrayMut (α := Ptr) ⟨[[some 1, some 2]], 0, 2⟩) 4 s ∧ s.ended = true ∧
    s.got = [(some 1, 0), (some 2, 1)] ∧ s.v.view = [some 7, some 2, some 9] :=
  ⟨_, .recv (.send (.recv (.send (.change (.change (.recv (.send (.send .start (.begin _ rfl)) (.read _ 0 2 (some 1) rfl rfl (by decide) rfl)) (.direct _ _ rfl rfl rfl))
    (.set 0 (some 7)) (.inr ⟨by simp, by simp [Calm]⟩) ⟨[[some 7, some 2]], 0, 2⟩ rfl)
    (.append (some 9)) (.inr ⟨by simp, trivial⟩) ⟨[[some 7, some 2], [some 7, some 2, some 9, none]], 1, 3⟩ rfl)
    (.read _ 0 2 (some 2) rfl rfl (by decide) rfl)) (.direct _ _ rfl rfl rfl)) (.close _ 0 2 rfl rfl rfl rfl)) (.finish _ rfl rfl rfl), rfl, rfl, rfl⟩

/-- with [1, 2, 3], deleting the first when it has come: 2 is skipped, 3 comes twice -/
example : ∃ n s, ArrRuns (fun n => 2 * n) (fun s o => s.got = [(some 1, 0)] ∧ o = .delete 0) (iterArrayMut (α := Ptr) ⟨[[some 1, some 2, some 3]], 0, 3⟩) n s ∧
    s.ended = true ∧ s.v.view = [some 2, some 3] ∧ s.got = [(some 1, 0), (some 3, 1), (some 3, 2)] :=
  C99_skipped (α := Ptr) (fun n => 2 * n) ⟨[[some 1, some 2, some 3]], 0, 3⟩ ⟨_, rfl, by decide⟩ (some 1) (some 2) [some 3] rfl

end JV
