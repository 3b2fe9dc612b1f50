import Verif.Proofs.KeyPathSlice
import Verif.Spec.PathCells
import Verif.Proofs.Size
/-! How much storage key paths take. -/
namespace JV
open Spec

/-- the length of the path so far -/
def parLen : Option SliceInfo → Nat
  | none => 0
  | some p => p.path.len

theorem cells_snoc (m : PathMem) (a : List Key) : cells (m ++ [a]) = cells m + a.length := by simp [cells]

theorem cells_set {a : List Key} : ∀ (m : PathMem) (i : Nat), a.length = (m.getD i []).length → cells (m.set i a) = cells m
  | [], i, h => rfl
  | b :: m, 0, h => by simp [cells] at h ⊢; omega
  | b :: m, i + 1, h => by
    have := cells_set m i (by simpa using h)
    simp only [cells, List.set_cons_succ, List.map_cons, List.sum_cons] at this ⊢
    omega

/-- room for one more path -/
theorem newSliceInfo_cells {grow : Nat → Nat} {G N : Nat} (hG : 1 ≤ G) (hg : ∀ n, 1 ≤ n → n < N → grow n ≤ G ∧ n + 1 ≤ G) (m : PathMem) (v : V) (par : Option SliceInfo) (k : Key)
    (h1 : ∀ p, par = some p → 1 ≤ p.path.len) (hN : parLen par < N) :
    cells (newSliceInfo grow m v par k).1 ≤ cells m + G ∧ (newSliceInfo grow m v par k).2.path.len = parLen par + 1 := by
  cases par with
  | none => exact ⟨by simp only [newSliceInfo, cells_snoc, List.length_singleton]; omega, rfl⟩
  | some p =>
    have hp := h1 p rfl
    have hN : p.path.len < N := hN
    obtain ⟨g1, g2⟩ := hg _ hp hN
    simp only [newSliceInfo, appendKey]
    split
    · exact ⟨by rw [cells_set _ _ (by rw [List.length_set])]; omega, rfl⟩
    · refine ⟨?_, rfl⟩
      simp only [cells_snoc, List.length_append, List.length_cons, List.length_replicate, List.length_take]
      omega

theorem placesM_perm {a b : List Ent} (h : a.Perm b) : placesM a = placesM b := by
  induction h with
  | nil => rfl
  | cons x _ ih => obtain ⟨k, i, v⟩ := x; simp only [placesM, ih]
  | swap x y l => obtain ⟨k, i, v⟩ := x; obtain ⟨k', i', v'⟩ := y; simp only [placesM]; omega
  | trans _ _ ih1 ih2 => exact ih1.trans ih2

/-- a call takes room for at most `n` paths -/
def Takes {α : Type} (G n : Nat) (st : PSt) (r : R (PSt × α)) : Prop := ∀ st' a, r = .ok (st', a) → cells st'.mem ≤ cells st.mem + n * G

theorem takes_bind {α β : Type} {G n k : Nat} {st : PSt} {r : R (PSt × α)} {f : PSt × α → R (PSt × β)} (h : Takes G n st r) (hf : ∀ st' a, Takes G k st' (f (st', a))) :
    Takes G (n + k) st (r >>= f) := by
  intro st' b hb
  cases r with
  | ok q =>
    obtain ⟨s, a⟩ := q
    have h1 := h s a rfl
    have h2 := hf s a st' b hb
    rw [Nat.add_mul]
    omega
  | err e => cases hb
  | panic => cases hb
  | diverge => cases hb

theorem takes_mono {α : Type} {G n k : Nat} {st : PSt} {r : R (PSt × α)} (h : Takes G n st r) (hk : n ≤ k) : Takes G k st r := by
  intro st' a hb
  have := h st' a hb
  have := Nat.mul_le_mul_right G hk
  omega

theorem takes_lift {α : Type} {G : Nat} (st : PSt) (f : MSt → R (MSt × α)) : Takes G 0 st (st.lift f) := by
  intro st' a h
  unfold PSt.lift at h
  cases hf : f st.m with
  | ok p => rw [hf] at h; cases h; exact Nat.le_add_right _ _
  | err e => rw [hf] at h; cases h
  | panic => rw [hf] at h; cases h
  | diverge => rw [hf] at h; cases h

theorem takes_ok {α : Type} {G n : Nat} {st st' : PSt} (a : α) (h : st'.mem = st.mem) : Takes G n st (.ok (st', a)) := by
  intro s b hb
  cases hb
  rw [h]
  exact Nat.le_add_right _ _

/-- from the state after one more path was made -/
theorem takes_path {α : Type} {G n : Nat} {st s : PSt} {r : R (PSt × α)} (h : cells s.mem ≤ cells st.mem + G) (hr : Takes G n s r) : Takes G (1 + n) st r := by
  intro st' a hb
  have := hr st' a hb
  rw [Nat.add_mul]
  omega

/-- a writer below a path -/
def WTakes (G N n d : Nat) (w : SliceWriter) : Prop := ∀ par st, (∀ p, par = some p → 1 ≤ p.path.len) → parLen par + d ≤ N → Takes G n st (w par st)

variable {E : Env} {S : SortFn} {o : Opt} {grow : Nat → Nat} {G N : Nat}

theorem takes_member {par : Option SliceInfo} {first : Bool} {e : Ent} {w : SliceWriter} {st : PSt} {n d : Nat} (hw : WTakes G N n d w)
    (h1 : ∀ p, par = some p → 1 ≤ p.path.len) (hN : parLen par + d ≤ N) : Takes G n st (writeMemberP o par first e w st) := by
  by_cases h : e.v = .nilp
  · obtain ⟨k, i, v⟩ := e
    cases h
    intro st' a hb
    cases hb
  · rw [writeMemberP_ne h]
    split
    · exact takes_ok _ rfl
    · rw [show n = 0 + (n + 0) by omega]
      refine takes_bind (takes_lift st (writeKey o first e)) fun st' a => ?_
      exact takes_bind (hw par st' h1 hN) fun st2 b => takes_ok (n := 0) (G := G) (st' := st2) true rfl

theorem takes_members {par : Option SliceInfo} {w : Ent → SliceWriter} {d : Nat} (H : o.lessFunc.isSome = true → 1 ≤ G ∧ ∀ n, 1 ≤ n → n < N → grow n ≤ G ∧ n + 1 ≤ G)
    (h1 : ∀ p, par = some p → 1 ≤ p.path.len) (hN : parLen par + 1 + d ≤ N) : ∀ (es : List Ent), (∀ e ∈ es, WTakes G N (places e.v) d (w e)) → ∀ (b : Bool) (st : PSt),
    Takes G (placesM es) st (unitR (writeMembersP o grow par b (es.map fun e => (e, w e)) st)) := by
  intro es
  induction es with
  | nil => intro _ b st; exact takes_ok _ rfl
  | cons e es ih =>
    intro hw b st
    have he := hw e List.mem_cons_self
    have ih := ih fun x hx => hw x (List.mem_cons_of_mem _ hx)
    have e1 : unitR (writeMembersP o grow par b ((e :: es).map fun e => (e, w e)) st) =
        ((if o.lessFunc.isSome then writeMemberP o (some (newSliceInfo grow st.mem e.v par (stringKey e.key)).2) (!b) e (w e)
            { st with mem := (newSliceInfo grow st.mem e.v par (stringKey e.key)).1 }
          else writeMemberP o none (!b) e (w e) st) >>= fun x => unitR (writeMembersP o grow par x.2 (es.map fun e => (e, w e)) x.1)) := by
      simp only [List.map_cons, writeMembersP, unitR]
      by_cases hl : o.lessFunc.isSome = true
      · simp only [if_pos hl]
        generalize writeMemberP o _ (!b) e (w e) _ = r
        cases r <;> rfl
      · simp only [if_neg hl]
        generalize writeMemberP o _ (!b) e (w e) _ = r
        cases r <;> rfl
    rw [e1]
    have hsum : placesM (e :: es) = 1 + places e.v + placesM es := by obtain ⟨k, i, v⟩ := e; simp only [placesM]; rw [Nat.add_comm (places v) 1]; rfl
    rw [hsum]
    refine takes_bind ?_ fun st' x => ih x st'
    split
    · rename_i hl
      obtain ⟨c1, c2⟩ := newSliceInfo_cells (grow := grow) (H hl).1 (H hl).2 st.mem e.v par (stringKey e.key) h1 (by omega)
      refine takes_path (s := { st with mem := (newSliceInfo grow st.mem e.v par (stringKey e.key)).1 }) c1 (takes_member he ?_ ?_)
      · intro p hp; cases hp; omega
      · show (newSliceInfo grow st.mem e.v par (stringKey e.key)).2.path.len + d ≤ N; omega
    · exact takes_mono (takes_member he (by intro p hp; cases hp) (by show 0 + d ≤ N; omega)) (by omega)

mutual
theorem marshalToP_takes (hS : GoodSort S) (H : o.lessFunc.isSome = true → 1 ≤ G ∧ ∀ n, 1 ≤ n → n < N → grow n ≤ G ∧ n + 1 ≤ G) : ∀ v, WTakes G N (places v) (nesting v) (marshalToP E S o grow v)
  | .nilp => fun par st _ _ st' a h => by cases h
  | .notExist => fun par st _ _ => takes_ok _ rfl
  | .str s => fun par st _ _ => takes_lift st (marshalTo E S o (.str s) none)
  | .num src n => fun par st _ _ => takes_lift st (marshalTo E S o (.num src n) none)
  | .bool b => fun par st _ _ => takes_lift st (marshalTo E S o (.bool b) none)
  | .null => fun par st _ _ => takes_lift st (marshalTo E S o .null none)
  | .arr xs => fun par st h1 hN => by
    simp only [marshalToP, places, nesting] at hN ⊢
    split
    · exact takes_ok _ rfl
    · rw [unit_bind]
      have h := marshalElemsP_takes hS H (.arr xs) xs 0 par (st.on fun m => ({ m with cnt := m.cnt + 1 } : MSt).w [0x5B]) h1 (by omega)
      exact takes_mono (takes_bind (k := 0) h fun st' a => takes_ok _ rfl) (by omega)
  | .obj n kvs low => fun par st h1 hN => by
    simp only [marshalToP, places, nesting] at hN ⊢
    split
    · exact takes_ok _ rfl
    · rw [unit_bind, memberWritersP_map, sortMembers_map]
      have hp := sorted_perm (S := S) (o := o) hS (par.map (SliceInfo.view st.mem)) kvs
      have hm : ∀ st : PSt, (st.called o par).mem = st.mem := by
        intro st; unfold PSt.called; split <;> rfl
      have h := takes_members (o := o) (d := nestingM kvs) H h1 (by omega) (sorted S o (par.map (SliceInfo.view st.mem)) kvs)
        (w := fun e => marshalToP E S o grow e.v) (fun e he => marshalMP_takes hS H kvs e (hp.mem_iff.1 he)) false
        ((st.on fun m => ({ m with cnt := m.cnt + 1 } : MSt).w [0x7B]).called o par)
      rw [placesM_perm hp] at h
      refine takes_mono (takes_bind (k := 0) (fun st' a hb => ?_) fun st' a => takes_ok _ rfl) (Nat.le_of_eq (Nat.add_zero _))
      have := h st' a hb
      rw [hm] at this
      exact this
theorem marshalElemsP_takes (hS : GoodSort S) (H : o.lessFunc.isSome = true → 1 ≤ G ∧ ∀ n, 1 ≤ n → n < N → grow n ≤ G ∧ n + 1 ≤ G) (v : V) : ∀ (xs : List V) (i : Nat) (par : Option SliceInfo) (st : PSt),
    (∀ p, par = some p → 1 ≤ p.path.len) → parLen par + 1 + nestingL xs ≤ N → Takes G (placesL xs) st (unitR (marshalElemsP E S o grow v xs i par st))
  | [], i, par, st, _, _ => takes_ok _ rfl
  | x :: xs, i, par, st, h1, hN => by
    have hx := marshalToP_takes hS H x
    simp only [nestingL] at hN
    let st1 := st.on fun m => newLine o (if i > 0 then m.w [0x2C] else m)
    have e1 : unitR (marshalElemsP E S o grow v (x :: xs) i par st) =
        ((if o.lessFunc.isSome then marshalToP E S o grow x (some (newSliceInfo grow st.mem v par (intKey i)).2) { st1 with mem := (newSliceInfo grow st.mem v par (intKey i)).1 }
          else marshalToP E S o grow x none st1) >>= fun y => unitR (marshalElemsP E S o grow v xs (i + 1) par y.1)) := by
      simp only [marshalElemsP, unitR]
      have : (st.on fun m => newLine o (if i > 0 then m.w [0x2C] else m)).mem = st.mem := rfl
      simp only [this, st1]
      by_cases hl : o.lessFunc.isSome = true
      · simp only [if_pos hl]
        generalize marshalToP E S o grow x _ _ = r
        cases r <;> rfl
      · simp only [if_neg hl]
        generalize marshalToP E S o grow x _ _ = r
        cases r <;> rfl
    rw [e1, show placesL (x :: xs) = (1 + places x) + placesL xs by simp only [placesL]; omega]
    refine takes_bind ?_ fun st' y => marshalElemsP_takes hS H v xs (i + 1) par st' h1 (by omega)
    split
    · rename_i hl
      obtain ⟨c1, c2⟩ := newSliceInfo_cells (grow := grow) (H hl).1 (H hl).2 st.mem v par (intKey i) h1 (by omega)
      refine takes_path (s := { st1 with mem := (newSliceInfo grow st.mem v par (intKey i)).1 }) c1 (hx _ _ ?_ ?_)
      · intro p hp; cases hp; omega
      · show (newSliceInfo grow st.mem v par (intKey i)).2.path.len + nesting x ≤ N; omega
    · intro st' a hb
      have := takes_mono (hx none st1 (by intro p hp; cases hp) (by show 0 + nesting x ≤ N; omega)) (Nat.le_add_left _ 1) st' a hb
      exact this
theorem marshalMP_takes (hS : GoodSort S) (H : o.lessFunc.isSome = true → 1 ≤ G ∧ ∀ n, 1 ≤ n → n < N → grow n ≤ G ∧ n + 1 ≤ G) : ∀ (kvs : List Ent), ∀ e ∈ kvs,
    WTakes G N (places e.v) (nestingM kvs) (marshalToP E S o grow e.v)
  | [], e, he => absurd he List.not_mem_nil
  | ⟨k, i, v⟩ :: es, e, he => by
    have hv := marshalToP_takes hS H v
    have hes := marshalMP_takes hS H es
    rcases List.mem_cons.1 he with h | h
    · rw [h]
      intro par st h1 hN
      simp only [nestingM] at hN
      exact hv par st h1 (by omega)
    · intro par st h1 hN
      simp only [nestingM] at hN
      exact hes e h par st h1 (by omega)
end

/-! ### the deep array with many elements -/

/-- the room of a path of `j` keys if each path is the only one made from the one before -/
def capAt (grow : Nat → Nat) : Nat → Nat
  | 0 => 0
  | 1 => 1
  | j + 2 => if j + 1 < capAt grow (j + 1) then capAt grow (j + 1) else max (grow (j + 1)) (j + 2)

theorem capAt_ge (grow : Nat → Nat) : ∀ j, j ≤ capAt grow j
  | 0 => Nat.le_refl _
  | 1 => Nat.le_refl _
  | j + 2 => by unfold capAt; split <;> omega

/-- slices are full again and again -/
theorem capAt_full (grow : Nat → Nat) (n : Nat) : ∃ d, n ≤ d ∧ 1 ≤ d ∧ capAt grow d = d := by
  have key : ∀ k j, 1 ≤ j → j + k = capAt grow j → capAt grow (j + k) = j + k := by
    intro k
    induction k with
    | zero => intro j _ h; exact h.symm
    | succ k ih =>
      intro j hj h
      have e : capAt grow (j + 1) = capAt grow j := by
        cases j with
        | zero => omega
        | succ j => show (if j + 1 < capAt grow (j + 1) then _ else _) = _; rw [if_pos (by omega)]
      have := ih (j + 1) (by omega) (by rw [e]; omega)
      rw [show j + (k + 1) = j + 1 + k by omega]
      exact this
  have h := capAt_ge grow (n + 1)
  refine ⟨capAt grow (n + 1), by omega, by omega, ?_⟩
  have := key (capAt grow (n + 1) - (n + 1)) (n + 1) (by omega) (by omega)
  rwa [show n + 1 + (capAt grow (n + 1) - (n + 1)) = capAt grow (n + 1) by omega] at this

/-- `m` nulls in an array that is nested `n` deep in others -/
def comb (m : Nat) : Nat → V
  | 0 => .arr (List.replicate m .null)
  | n + 1 => .arr [comb m n]

/-- the path below `par` is at the start of an array with the room that it would have if it were alone -/
def Alone (grow : Nat → Nat) (mem : PathMem) (par : Option SliceInfo) : Prop :=
  ∀ p, par = some p → 1 ≤ p.path.len ∧ p.path.arr < mem.length ∧ (mem.getD p.path.arr []).length = capAt grow p.path.len

theorem newSliceInfo_alone {mem : PathMem} {par : Option SliceInfo} (h : Alone grow mem par) (v : V) (k : Key) :
    Alone grow (newSliceInfo grow mem v par k).1 (some (newSliceInfo grow mem v par k).2) ∧ cells mem ≤ cells (newSliceInfo grow mem v par k).1 ∧
    (newSliceInfo grow mem v par k).2.path.len = parLen par + 1 := by
  cases par with
  | none =>
    refine ⟨?_, ?_, rfl⟩
    · intro p hp
      cases hp
      simp [newSliceInfo, getD_snoc, capAt]
    · simp only [newSliceInfo, cells_snoc]; omega
  | some p =>
    obtain ⟨h1, h2, h3⟩ := h p rfl
    have hc : capAt grow (p.path.len + 1) = if p.path.len < capAt grow p.path.len then capAt grow p.path.len else max (grow p.path.len) (p.path.len + 1) := by
      obtain ⟨j, hj⟩ : ∃ j, p.path.len = j + 1 := ⟨p.path.len - 1, by omega⟩
      rw [hj]; rfl
    have hge := capAt_ge grow p.path.len
    simp only [newSliceInfo, appendKey, h3]
    split
    · rename_i hl
      refine ⟨?_, ?_, rfl⟩
      · intro q hq
        cases hq
        refine ⟨by simp, by simpa using h2, ?_⟩
        simp only [getD_set, h2, and_self, if_true, List.length_set]
        rw [hc, if_pos hl, h3]
      · rw [cells_set _ _ (by rw [List.length_set])]; exact Nat.le_refl _
    · rename_i hl
      refine ⟨?_, ?_, rfl⟩
      · intro q hq
        cases hq
        refine ⟨by simp, by simp, ?_⟩
        simp only [getD_snoc, Nat.lt_irrefl, if_false, if_true, List.length_append, List.length_cons, List.length_replicate, List.length_take, h3]
        rw [hc, if_neg hl]
        omega
      · rw [cells_snoc]; omega

/-- below a full path each new one takes room of its own -/
theorem newSliceInfo_full {mem : PathMem} {p : SliceInfo} (h : (mem.getD p.path.arr []).length = p.path.len) (v : V) (k : Key) :
    ∃ a, (newSliceInfo grow mem v (some p) k).1 = mem ++ [a] ∧ p.path.len + 1 ≤ a.length := by
  simp only [newSliceInfo, appendKey, h, Nat.lt_irrefl, if_false]
  refine ⟨_, rfl, ?_⟩
  simp only [List.length_append, List.length_cons, List.length_replicate, List.length_take, h]
  omega

theorem nulls_takes (hl : o.lessFunc.isSome = true) (hi : o.indent = none) (v : V) (p : SliceInfo) : ∀ (m i : Nat) (st : PSt), p.path.arr < st.mem.length → (st.mem.getD p.path.arr []).length = p.path.len →
    ∃ st', marshalElemsP E S o grow v (List.replicate m .null) i (some p) st = .ok st' ∧ cells st.mem + m * (p.path.len + 1) ≤ cells st'.mem ∧
      st'.m.buf.length ≤ st.m.buf.length + 5 * m ∧ st'.m.cnt = st.m.cnt
  | 0, i, st, _, _ => ⟨st, rfl, by omega, by omega, rfl⟩
  | m + 1, i, st, ha, hf => by
    obtain ⟨a, h1, h2⟩ := newSliceInfo_full (grow := grow) hf v (intKey i)
    have h1' : (newSliceInfo grow (st.on fun m => newLine o (if i > 0 then m.w [0x2C] else m)).mem v (some p) (intKey i)).1 = st.mem ++ [a] := h1
    obtain ⟨st', e1, e2, e3, e4⟩ := nulls_takes hl hi v p m (i + 1) { (st.on fun m => (if i > 0 then m.w [0x2C] else m).w nullText) with mem := st.mem ++ [a] }
      (by simp only [List.length_append, List.length_singleton]; omega) (by rw [getD_snoc, if_pos ha]; exact hf)
    refine ⟨st', ?_, ?_, ?_, ?_⟩
    · rw [← e1]
      simp only [List.replicate_succ, marshalElemsP, marshalToP, hl, if_true, marshalTo, PSt.lift, newLine, hi, PSt.on, h1]
      rfl
    · have e2 : cells (st.mem ++ [a]) + m * (p.path.len + 1) ≤ cells st'.mem := e2
      rw [cells_snoc] at e2
      rw [Nat.add_mul]
      omega
    · have : (PSt.m { (st.on fun m => (if i > 0 then m.w [0x2C] else m).w nullText) with mem := st.mem ++ [a] }).buf.length ≤ st.m.buf.length + 5 := by
        simp only [PSt.on]
        by_cases h : i > 0 <;> simp [h, MSt.w, nullText]
      omega
    · rw [e4]
      simp only [PSt.on]
      by_cases h : i > 0 <;> simp [h, MSt.w]

theorem comb_takes (hl : o.lessFunc.isSome = true) (hi : o.indent = none) (m : Nat) (hm : 1 ≤ m) : ∀ (n : Nat) (par : Option SliceInfo) (st : PSt), Alone grow st.mem par → 1 ≤ parLen par + n →
    capAt grow (parLen par + n) = parLen par + n →
    ∃ st', marshalToP E S o grow (comb m n) par st = .ok (st', none) ∧ cells st.mem + m * (parLen par + n + 1) ≤ cells st'.mem ∧
      st'.m.buf.length ≤ st.m.buf.length + 5 * m + 2 * (n + 1)
  | 0, none, st, ha, h1, hc => by simp only [parLen] at h1; omega
  | 0, some p, st, ha, h1, hc => by
    obtain ⟨-, a2, a3⟩ := ha p rfl
    have hc : capAt grow p.path.len = p.path.len := hc
    obtain ⟨st', e1, e2, e3, e4⟩ := nulls_takes (E := E) (S := S) (grow := grow) hl hi (.arr (List.replicate m .null)) p m 0
      (st.on fun m => ({ m with cnt := m.cnt + 1 } : MSt).w [0x5B]) a2 (by rw [← hc, ← a3]; rfl)
    refine ⟨st'.on fun m => (newLine o { m with cnt := m.cnt - 1 }).w [0x5D], ?_, e2, ?_⟩
    · simp only [comb, marshalToP, List.length_replicate]
      rw [if_neg (by omega), e1]
      rfl
    · simp only [PSt.on, newLine, hi, MSt.w, List.length_append, List.length_singleton] at e3 ⊢
      omega
  | n + 1, par, st, ha, h1, hc => by
    obtain ⟨a1, a2, a3⟩ := newSliceInfo_alone ha (comb m (n + 1)) (intKey 0)
    have hpl : parLen (some (newSliceInfo grow st.mem (comb m (n + 1)) par (intKey 0)).2) = parLen par + 1 := a3
    obtain ⟨st', e1, e2, e3⟩ := comb_takes hl hi m hm n (some (newSliceInfo grow st.mem (comb m (n + 1)) par (intKey 0)).2)
      { (st.on fun m => ({ m with cnt := m.cnt + 1 } : MSt).w [0x5B]) with mem := (newSliceInfo grow st.mem (comb m (n + 1)) par (intKey 0)).1 } a1 (by omega)
      (by rw [hpl, show parLen par + 1 + n = parLen par + (n + 1) by omega]; exact hc)
    refine ⟨st'.on fun m => (newLine o { m with cnt := m.cnt - 1 }).w [0x5D], ?_, ?_, ?_⟩
    · have : marshalToP E S o grow (comb m (n + 1)) par st = (marshalToP E S o grow (comb m n) (some (newSliceInfo grow st.mem (comb m (n + 1)) par (intKey 0)).2)
          { (st.on fun m => ({ m with cnt := m.cnt + 1 } : MSt).w [0x5B]) with mem := (newSliceInfo grow st.mem (comb m (n + 1)) par (intKey 0)).1 } >>= fun x =>
          .ok (x.1.on fun m => (newLine o { m with cnt := m.cnt - 1 }).w [0x5D], none)) := by
        simp only [comb, marshalToP, List.length_singleton, marshalElemsP, hl, if_true, newLine, hi, PSt.on]
        rw [if_neg (by omega)]
        simp only [Nat.lt_irrefl, if_false]
        generalize marshalToP E S o grow (comb m n) _ _ = r
        cases r <;> rfl
      rw [this, e1]
      rfl
    · show cells st.mem + m * (parLen par + (n + 1) + 1) ≤ cells st'.mem
      rw [hpl, show parLen par + 1 + n = parLen par + (n + 1) by omega] at e2
      have e2 : cells (newSliceInfo grow st.mem (comb m (n + 1)) par (intKey 0)).1 + m * (parLen par + (n + 1) + 1) ≤ cells st'.mem := e2
      omega
    · simp only [PSt.on, newLine, hi, MSt.w, List.length_append, List.length_singleton] at e3 ⊢
      omega

/-! ### its text -/

/-- the document of `comb` -/
def combJ (m : Nat) : Nat → J
  | 0 => .arr (List.replicate m .null)
  | n + 1 => .arr [combJ m n]

theorem combJ_toV (m : Nat) : ∀ n, toV E (combJ m n) = comb m n
  | 0 => by
    have : ∀ m, toVL E (List.replicate m .null) = List.replicate m .null := by
      intro m
      induction m with
      | zero => rfl
      | succ m ih => simp only [List.replicate_succ, toVL, toV, ih]
    simp only [combJ, comb, toV, this]
  | n + 1 => by simp only [combJ, comb, toV, toVL, combJ_toV m n]

theorem nulls_text {num : Bytes → Prop} : ∀ m : Nat, ∃ t, LElems num t (List.replicate m .null) ∧ t.length = 5 * m + 1
  | 0 => ⟨_, .nil [] (by intro c h; cases h), rfl⟩
  | m + 1 => by
    obtain ⟨t, h1, h2⟩ := nulls_text (num := num) m
    refine ⟨_, .cons [0x2C] _ t .null _ (by intro c h; simp at h; simp [h]) .null h1 trivial, ?_⟩
    simp only [List.length_append, List.length_cons, List.length_nil, h2]
    omega

theorem combJ_text {num : Bytes → Prop} (m : Nat) (hm : 1 ≤ m) : ∀ n : Nat, ∃ t, LVal num t (combJ m n) ∧ t.length = 5 * m + 2 * n + 1
  | 0 => by
    obtain ⟨k, rfl⟩ : ∃ k, m = k + 1 := ⟨m - 1, by omega⟩
    obtain ⟨t, h1, h2⟩ := nulls_text (num := num) k
    refine ⟨_, .arr _ _ (.cons [] _ t .null _ (by intro c h; cases h) .null h1 trivial), ?_⟩
    simp only [List.length_append, List.length_cons, List.length_nil, h2]
    omega
  | n + 1 => by
    obtain ⟨t, h1, h2⟩ := combJ_text (num := num) m hm n
    refine ⟨_, .arr _ _ (.cons [] _ _ _ [] (by intro c h; cases h) h1 (.nil [] (by intro c h; cases h)) (by cases n <;> trivial)), ?_⟩
    simp only [List.length_append, List.length_cons, List.length_nil, h2]
    omega

mutual
theorem places_breaks : ∀ v, places v ≤ breaks v
  | .arr xs => by have := placesL_breaks xs; simp only [places, breaks]; omega
  | .obj n kvs low => by have := placesM_breaks kvs; simp only [places, breaks]; omega
  | .nilp | .notExist | .str _ | .num _ _ | .bool _ | .null => Nat.le_refl _
theorem placesL_breaks : ∀ xs, placesL xs ≤ breaksL xs
  | [] => Nat.le_refl _
  | x :: xs => by have := places_breaks x; have := placesL_breaks xs; simp only [placesL, breaksL]; omega
theorem placesM_breaks : ∀ es, placesM es ≤ breaksM es
  | [] => Nat.le_refl _
  | ⟨k, i, v⟩ :: es => by have := places_breaks v; have := placesM_breaks es; simp only [placesM, breaksM]; omega
end

end JV
