import Verif.Model.KeyPathSlice
import Verif.Proofs.Doc
/-! Marshal with key paths in shared storage writes the same text and calls the less function with the same paths. -/
namespace JV
open Spec

/-- the slice lies within its array -/
def SliceIn (m : PathMem) (par : Option SliceInfo) : Prop := ∀ p, par = some p → p.path.arr < m.length ∧ p.path.len ≤ (m.getD p.path.arr []).length

/-- arrays stay, except for what lies behind the end of the slice of `par` -/
structure Behind (m : PathMem) (par : Option SliceInfo) (m' : PathMem) : Prop where
  le : m.length ≤ m'.length
  len : ∀ b, b < m.length → (m'.getD b []).length = (m.getD b []).length
  same : ∀ b, b < m.length → ∀ i : Nat, (∀ p, par = some p → p.path.arr = b → i < p.path.len) → (m'.getD b [])[i]? = (m.getD b [])[i]?

theorem behind_refl (m : PathMem) (par : Option SliceInfo) : Behind m par m := ⟨Nat.le_refl _, fun _ _ => rfl, fun _ _ _ _ => rfl⟩

theorem behind_trans {m m1 m2 : PathMem} {par : Option SliceInfo} (h1 : Behind m par m1) (h2 : Behind m1 par m2) : Behind m par m2 :=
  ⟨Nat.le_trans h1.le h2.le, fun b hb => (h2.len b (Nat.lt_of_lt_of_le hb h1.le)).trans (h1.len b hb),
    fun b hb i hi => (h2.same b (Nat.lt_of_lt_of_le hb h1.le) i hi).trans (h1.same b hb i hi)⟩

theorem behind_in {m m' : PathMem} {par : Option SliceInfo} (h : Behind m par m') (hv : SliceIn m par) : SliceIn m' par := by
  intro p hp
  obtain ⟨h1, h2⟩ := hv p hp
  exact ⟨Nat.lt_of_lt_of_le h1 h.le, by rw [h.len _ h1]; exact h2⟩

theorem behind_view {m m' : PathMem} {par : Option SliceInfo} (h : Behind m par m') (hv : SliceIn m par) :
    par.map (SliceInfo.view m') = par.map (SliceInfo.view m) := by
  cases par with
  | none => rfl
  | some p =>
    obtain ⟨h1, h2⟩ := hv p rfl
    simp only [Option.map_some, SliceInfo.view, PathSlice.view, Option.some.injEq, ParentInfo.mk.injEq, true_and]
    apply List.ext_getElem?
    intro i
    by_cases hi : i < p.path.len
    · rw [List.getElem?_take_of_lt hi, List.getElem?_take_of_lt hi]
      exact h.same _ h1 i fun q hq _ => by cases hq; exact hi
    · rw [List.getElem?_eq_none (by simp; omega), List.getElem?_eq_none (by simp; omega)]

theorem getD_set {α : Type} (l : List α) (d : α) (a b : Nat) (x : α) : (l.set a x).getD b d = if a = b ∧ a < l.length then x else l.getD b d := by
  simp only [List.getD_eq_getElem?_getD, List.getElem?_set]
  by_cases h : a = b
  · subst h
    by_cases h2 : a < l.length
    · simp [h2]
    · simp [h2]
  · simp [h]

theorem getD_snoc {α : Type} (l : List α) (d x : α) (b : Nat) : (l ++ [x]).getD b d = if b < l.length then l.getD b d else if b = l.length then x else d := by
  simp only [List.getD_eq_getElem?_getD]
  by_cases h : b < l.length
  · simp [h, List.getElem?_append_left h]
  · rw [List.getElem?_append_right (by omega), if_neg h]
    by_cases h2 : b = l.length
    · simp [h2]
    · rw [if_neg h2, List.getElem?_eq_none (by simp; omega)]; rfl

theorem newSliceInfo_spec {grow : Nat → Nat} {m : PathMem} {par : Option SliceInfo} (v : V) (k : Key) (h : SliceIn m par) :
    (some (newSliceInfo grow m v par k).2).map (SliceInfo.view (newSliceInfo grow m v par k).1) = some (newParentInfo v (par.map (SliceInfo.view m)) k) ∧
    SliceIn (newSliceInfo grow m v par k).1 (some (newSliceInfo grow m v par k).2) ∧
    ∀ m', Behind (newSliceInfo grow m v par k).1 (some (newSliceInfo grow m v par k).2) m' → Behind m par m' := by
  cases par with
  | none =>
    refine ⟨?_, ?_, fun m' hm => ⟨?_, ?_, ?_⟩⟩
    · simp [newSliceInfo, newParentInfo, SliceInfo.view, PathSlice.view, getD_snoc]
    · intro p hp
      cases hp
      simp [newSliceInfo, getD_snoc]
    · have := hm.le; simp [newSliceInfo] at this; omega
    · intro b hb
      rw [hm.len b (by simp [newSliceInfo]; omega)]
      show ((m ++ [[k]]).getD b []).length = _
      rw [getD_snoc, if_pos hb]
    · intro b hb i hi
      rw [hm.same b (by simp [newSliceInfo]; omega) i (by intro p hp h; cases hp; simp [newSliceInfo] at h; omega)]
      show ((m ++ [[k]]).getD b [])[i]? = _
      rw [getD_snoc, if_pos hb]
  | some p =>
    obtain ⟨h1, h2⟩ := h p rfl
    by_cases hl : p.path.len < (m.getD p.path.arr []).length
    · have e : newSliceInfo grow m v (some p) k =
          (m.set p.path.arr ((m.getD p.path.arr []).set p.path.len k), { parent := v, path := { arr := p.path.arr, len := p.path.len + 1 } }) := by
        simp only [newSliceInfo, appendKey, if_pos hl]
      rw [e]
      refine ⟨?_, ?_, fun m' hm => ⟨?_, ?_, ?_⟩⟩
      · simp only [Option.map_some, SliceInfo.view, PathSlice.view, newParentInfo, getD_set, h1, and_self, if_true, Option.some.injEq, ParentInfo.mk.injEq, true_and]
        rw [List.take_add_one, List.take_set_of_le (Nat.le_refl _), List.getElem?_set_self hl]
        rfl
      · intro q hq
        cases hq
        simp only [List.length_set, getD_set, h1, and_self, if_true]
        exact ⟨trivial, hl⟩
      · have := hm.le; simpa using this
      · intro b hb
        rw [hm.len b (by simpa using hb), getD_set]
        by_cases hb' : p.path.arr = b
        · subst hb'; rw [if_pos ⟨rfl, h1⟩, List.length_set]
        · rw [if_neg (fun h => hb' h.1)]
      · intro b hb i hi
        rw [hm.same b (by simpa using hb) i (by intro q hq h; cases hq; exact Nat.lt_succ_of_lt (hi p rfl h)), getD_set]
        by_cases hb' : p.path.arr = b
        · have := hi p rfl hb'
          subst hb'
          rw [if_pos ⟨rfl, h1⟩, List.getElem?_set_ne (by omega)]
        · rw [if_neg (fun h => hb' h.1)]
    · have hlen : p.path.len = (m.getD p.path.arr []).length := by omega
      have e : newSliceInfo grow m v (some p) k =
          (m ++ [(m.getD p.path.arr []).take p.path.len ++ k :: List.replicate (grow p.path.len - (p.path.len + 1)) {}],
            { parent := v, path := { arr := m.length, len := p.path.len + 1 } }) := by
        simp only [newSliceInfo, appendKey, if_neg hl]
      rw [e]
      refine ⟨?_, ?_, fun m' hm => ⟨?_, ?_, ?_⟩⟩
      · simp only [Option.map_some, SliceInfo.view, PathSlice.view, newParentInfo, getD_snoc, Nat.lt_irrefl, if_false, if_true, Option.some.injEq, ParentInfo.mk.injEq, true_and]
        rw [List.take_append, List.take_of_length_le (by simp; omega)]
        simp only [List.length_take, Nat.min_eq_left h2, show p.path.len + 1 - p.path.len = 1 by omega, List.take_succ_cons, List.take_zero]
      · intro q hq
        cases hq
        simp only [List.length_append, List.length_cons, List.length_nil, getD_snoc, Nat.lt_irrefl, if_false, if_true, List.length_take, Nat.min_eq_left h2]
        omega
      · have := hm.le; simp at this; omega
      · intro b hb
        rw [hm.len b (by simp; omega), getD_snoc, if_pos hb]
      · intro b hb i hi
        rw [hm.same b (by simp; omega) i (by intro q hq h; cases hq; simp at h; omega), getD_snoc, if_pos hb]

/-- the call in shared storage does what the call of Model/Marshal does, and writes only behind the end of the slice -/
def SameRun {α : Type} (m : PathMem) (par : Option SliceInfo) (r : R (PSt × α)) (r0 : R (MSt × α)) : Prop :=
  match r with
  | .ok (st, a) => r0 = .ok (st.m, a) ∧ Behind m par st.mem
  | .err e => r0 = .err e
  | .panic => r0 = .panic
  | .diverge => r0 = .diverge

theorem same_bind {α β : Type} {m : PathMem} {par : Option SliceInfo} {r : R (PSt × α)} {r0 : R (MSt × α)} {f : PSt × α → R (PSt × β)} {g : MSt × α → R (MSt × β)}
    (h : SameRun m par r r0) (hf : ∀ st a, Behind m par st.mem → SameRun st.mem par (f (st, a)) (g (st.m, a))) : SameRun m par (r >>= f) (r0 >>= g) := by
  cases r with
  | ok p =>
    obtain ⟨st, a⟩ := p
    obtain ⟨h1, h2⟩ := h
    subst h1
    have h3 := hf st a h2
    show SameRun m par (f (st, a)) (g (st.m, a))
    cases h4 : f (st, a) with
    | ok q => rw [h4] at h3; exact ⟨h3.1, behind_trans h2 h3.2⟩
    | err e => rw [h4] at h3; exact h3
    | panic => rw [h4] at h3; exact h3
    | diverge => rw [h4] at h3; exact h3
  | err e => cases (show r0 = .err e from h); rfl
  | panic => cases (show r0 = .panic from h); rfl
  | diverge => cases (show r0 = .diverge from h); rfl

theorem same_lift {α : Type} {par : Option SliceInfo} (st : PSt) (f : MSt → R (MSt × α)) : SameRun st.mem par (st.lift f) (f st.m) := by
  unfold PSt.lift
  cases h : f st.m with
  | ok p => exact ⟨rfl, behind_refl _ _⟩
  | err e => rfl
  | panic => rfl
  | diverge => rfl

/-- writers of a member -/
def SameWriter (w : SliceWriter) (w0 : Writer) : Prop :=
  ∀ par st, SliceIn st.mem par → SameRun st.mem par (w par st) (w0 (par.map (SliceInfo.view st.mem)) st.m)

/-- what is written before the value of a member -/
def writeKey (o : Opt) (first : Bool) (e : Ent) (m : MSt) : R (MSt × Unit) := do
  let m := if first then m else m.w [0x2C]
  let m := newLine o m
  let m := m.w [0x22]
  let m ← writeEscaped o e.key m
  pure (m.w (if o.indent.isSome then [0x22, 0x3A, 0x20] else [0x22, 0x3A]), ())

theorem writeMember_ne {o : Opt} {par : Option ParentInfo} {first : Bool} {e : Ent} {w : Writer} {st : MSt} (h1 : e.v ≠ .nilp) :
    writeMember o par first e w st = if (isNullV e.v && o.omitNull) = true then .ok (st, false)
      else (writeKey o first e st >>= fun x => w par x.1 >>= fun y => .ok (y.1, true)) := by
  have : writeMember o par first e w st = if (isNullV e.v && o.omitNull) = true then .ok (st, false)
      else (writeEscaped o e.key ((newLine o (if first then st else st.w [0x2C])).w [0x22]) >>= fun m =>
        w par (m.w (if o.indent.isSome then [0x22, 0x3A, 0x20] else [0x22, 0x3A])) >>= fun y => .ok (y.1, true)) := by
    obtain ⟨k, i, v⟩ := e
    cases v <;> first
      | exact absurd rfl h1
      | rfl
  rw [this]
  unfold writeKey
  generalize hr : writeEscaped o e.key _ = r
  dsimp only
  rw [hr]
  cases r <;> rfl

theorem writeMemberP_ne {o : Opt} {par : Option SliceInfo} {first : Bool} {e : Ent} {w : SliceWriter} {st : PSt} (h1 : e.v ≠ .nilp) :
    writeMemberP o par first e w st = if (isNullV e.v && o.omitNull) = true then .ok (st, false)
      else (st.lift (writeKey o first e) >>= fun x => w par x.1 >>= fun y => .ok (y.1, true)) := by
  obtain ⟨k, i, v⟩ := e
  cases v <;> first
    | exact absurd rfl h1
    | rfl

theorem same_writeMember {o : Opt} {par : Option SliceInfo} {first : Bool} {e : Ent} {w : SliceWriter} {w0 : Writer} (hw : SameWriter w w0) (st : PSt)
    (hp : SliceIn st.mem par) :
    SameRun st.mem par (writeMemberP o par first e w st) (writeMember o (par.map (SliceInfo.view st.mem)) first e w0 st.m) := by
  by_cases h1 : e.v = .nilp
  · obtain ⟨k, i, v⟩ := e
    cases h1
    exact rfl
  · by_cases h2 : (isNullV e.v && o.omitNull) = true
    · rw [writeMember_ne h1, writeMemberP_ne h1, if_pos h2, if_pos h2]; exact ⟨rfl, behind_refl _ _⟩
    · rw [writeMember_ne h1, writeMemberP_ne h1, if_neg h2, if_neg h2]
      refine same_bind (same_lift _ _) fun st' a hb => same_bind ?_ fun st2 b hb2 => ⟨rfl, behind_refl _ _⟩
      rw [← behind_view hb hp]
      exact hw par st' (behind_in hb hp)

/-- the run below a new path is a run below the old one -/
theorem same_below {α : Type} {grow : Nat → Nat} {m : PathMem} {par : Option SliceInfo} {v : V} {k : Key} {r : R (PSt × α)} {r0 : R (MSt × α)} (hp : SliceIn m par)
    (h : SameRun (newSliceInfo grow m v par k).1 (some (newSliceInfo grow m v par k).2) r r0) : SameRun m par r r0 := by
  cases r with
  | ok p => exact ⟨h.1, (newSliceInfo_spec v k hp).2.2 _ h.2⟩
  | err e => exact h
  | panic => exact h
  | diverge => exact h

/-- without a path nothing that was there is written -/
theorem same_none {α : Type} {m : PathMem} {par : Option SliceInfo} {r : R (PSt × α)} {r0 : R (MSt × α)} (h : SameRun m none r r0) : SameRun m par r r0 := by
  cases r with
  | ok p => exact ⟨h.1, h.2.le, h.2.len, fun b hb i _ => h.2.same b hb i fun q hq => by cases hq⟩
  | err e => exact h
  | panic => exact h
  | diverge => exact h

/-- a result without a value -/
def unitR {σ : Type} (r : R σ) : R (σ × Unit) := r >>= fun s => .ok (s, ())

theorem unit_bind {σ τ : Type} (r : R σ) (f : σ → R τ) : (r >>= f) = (unitR r >>= fun x => f x.1) := by cases r <;> rfl

theorem same_writeMembers {o : Opt} {grow : Nat → Nat} {par : Option SliceInfo} {w : Ent → SliceWriter} {w0 : Ent → Writer} (es : List Ent)
    (hw : ∀ e ∈ es, SameWriter (w e) (w0 e)) : ∀ (b : Bool) (st : PSt), SliceIn st.mem par →
    SameRun st.mem par (unitR (writeMembersP o grow par b (es.map fun e => (e, w e)) st))
      (unitR (writeMembers o (par.map (SliceInfo.view st.mem)) b (es.map fun e => (e, w0 e)) st.m)) := by
  induction es with
  | nil => intro b st hp; exact ⟨rfl, behind_refl _ _⟩
  | cons e es ih =>
    intro b st hp
    have he := hw e List.mem_cons_self
    have ih := ih fun x hx => hw x (List.mem_cons_of_mem _ hx)
    have e1 : unitR (writeMembersP o grow par b ((e :: es).map fun e => (e, w e)) st) =
        ((if o.lessFunc.isSome then writeMemberP o (some (newSliceInfo grow st.mem e.v par (stringKey e.key)).2) (!b) e (w e)
            { st with mem := (newSliceInfo grow st.mem e.v par (stringKey e.key)).1 }
          else writeMemberP o none (!b) e (w e) st) >>= fun x => unitR (writeMembersP o grow par x.2 (es.map fun e => (e, w e)) x.1)) := by
      simp only [List.map_cons, writeMembersP, unitR]
      by_cases hl : o.lessFunc.isSome = true
      · simp only [if_pos hl]
        generalize writeMemberP o _ (!b) e (w e) _ = r
        cases r <;> rfl
      · simp only [if_neg hl]
        generalize writeMemberP o _ (!b) e (w e) _ = r
        cases r <;> rfl
    have e2 : unitR (writeMembers o (par.map (SliceInfo.view st.mem)) b ((e :: es).map fun e => (e, w0 e)) st.m) =
        (writeMember o (if o.lessFunc.isSome then some (newParentInfo e.v (par.map (SliceInfo.view st.mem)) (stringKey e.key)) else none) (!b) e (w0 e) st.m >>= fun x =>
          unitR (writeMembers o (par.map (SliceInfo.view st.mem)) x.2 (es.map fun e => (e, w0 e)) x.1)) := by
      simp only [List.map_cons, writeMembers, unitR]
      generalize writeMember o _ (!b) e (w0 e) st.m = r
      cases r <;> rfl
    rw [e1, e2]
    refine same_bind ?_ fun st' x hb => ?_
    · by_cases hl : o.lessFunc.isSome = true
      · rw [if_pos hl, if_pos hl]
        have hs := newSliceInfo_spec (grow := grow) e.v (stringKey e.key) hp
        apply same_below (grow := grow) (v := e.v) (k := stringKey e.key) hp
        rw [← hs.1]
        exact same_writeMember he { st with mem := (newSliceInfo grow st.mem e.v par (stringKey e.key)).1 } hs.2.1
      · rw [if_neg hl, if_neg hl]
        exact same_none (same_writeMember he st fun p hp => by cases hp)
    · rw [← behind_view hb hp]
      exact ih x st' (behind_in hb hp)

theorem memberWritersP_map {E : Env} {S : SortFn} {o : Opt} {grow : Nat → Nat} (kvs : List Ent) :
    memberWritersP E S o grow kvs = kvs.map fun e => (e, marshalToP E S o grow e.v) := by
  induction kvs with
  | nil => simp [memberWritersP]
  | cons e kvs ih => obtain ⟨k, i, v⟩ := e; simp [memberWritersP, ih]

mutual
theorem same_marshalTo (E : Env) (S : SortFn) (hS : GoodSort S) (o : Opt) (grow : Nat → Nat) : ∀ v, SameWriter (marshalToP E S o grow v) (marshalTo E S o v)
  | .nilp => fun par st hp => rfl
  | .notExist => fun par st hp => ⟨rfl, behind_refl _ _⟩
  | .str s => fun par st hp => same_lift st (marshalTo E S o (.str s) none)
  | .num src n => fun par st hp => same_lift st (marshalTo E S o (.num src n) none)
  | .bool b => fun par st hp => same_lift st (marshalTo E S o (.bool b) none)
  | .null => fun par st hp => same_lift st (marshalTo E S o .null none)
  | .arr xs => fun par st hp => by
    simp only [marshalToP, marshalTo]
    by_cases h : xs.length = 0
    · rw [if_pos h, if_pos h]; exact ⟨rfl, behind_refl _ _⟩
    · rw [if_neg h, if_neg h, unit_bind, unit_bind (marshalElems ..)]
      refine same_bind (same_marshalElems E S hS o grow (.arr xs) xs 0 par (st.on fun m => ({ m with cnt := m.cnt + 1 } : MSt).w [0x5B]) hp) fun st' a hb => ⟨rfl, behind_refl _ _⟩
  | .obj n kvs low => fun par st hp => by
    simp only [marshalToP, marshalTo]
    by_cases h : kvs.length = 0
    · rw [if_pos h, if_pos h]; exact ⟨rfl, behind_refl _ _⟩
    · rw [if_neg h, if_neg h, unit_bind, unit_bind (writeMembers ..), memberWritersP_map, memberWriters_map, sortMembers_map, sortMembers_map]
      have hm : ∀ st : PSt, (st.called o par).mem = st.mem ∧ (st.called o par).m = st.m := by
        intro st; unfold PSt.called; split <;> exact ⟨rfl, rfl⟩
      have := same_writeMembers (o := o) (grow := grow) (par := par) (w := fun e => marshalToP E S o grow e.v) (w0 := fun e => marshalTo E S o e.v)
        (sorted S o (par.map (SliceInfo.view st.mem)) kvs) (fun e he => same_members E S hS o grow kvs e ((sorted_perm hS _ kvs).mem_iff.1 he)) false
        ((st.on fun m => ({ m with cnt := m.cnt + 1 } : MSt).w [0x7B]).called o par) (by rw [(hm _).1]; exact hp)
      rw [(hm _).1, (hm _).2] at this
      exact same_bind this fun st' a hb => ⟨rfl, behind_refl _ _⟩
theorem same_marshalElems (E : Env) (S : SortFn) (hS : GoodSort S) (o : Opt) (grow : Nat → Nat) (v : V) : ∀ (xs : List V) (i : Nat) (par : Option SliceInfo) (st : PSt), SliceIn st.mem par →
    SameRun st.mem par (unitR (marshalElemsP E S o grow v xs i par st)) (unitR (marshalElems E S o v xs i (par.map (SliceInfo.view st.mem)) st.m))
  | [], i, par, st, hp => ⟨rfl, behind_refl _ _⟩
  | x :: xs, i, par, st, hp => by
    have hx := same_marshalTo E S hS o grow x
    let st1 := st.on fun m => newLine o (if i > 0 then m.w [0x2C] else m)
    have e1 : unitR (marshalElemsP E S o grow v (x :: xs) i par st) =
        ((if o.lessFunc.isSome then marshalToP E S o grow x (some (newSliceInfo grow st.mem v par (intKey i)).2) { st1 with mem := (newSliceInfo grow st.mem v par (intKey i)).1 }
          else marshalToP E S o grow x none st1) >>= fun y => unitR (marshalElemsP E S o grow v xs (i + 1) par y.1)) := by
      simp only [marshalElemsP, unitR]
      have : (st.on fun m => newLine o (if i > 0 then m.w [0x2C] else m)).mem = st.mem := rfl
      simp only [this, st1]
      by_cases hl : o.lessFunc.isSome = true
      · simp only [if_pos hl]
        generalize marshalToP E S o grow x _ _ = r
        cases r <;> rfl
      · simp only [if_neg hl]
        generalize marshalToP E S o grow x _ _ = r
        cases r <;> rfl
    have e2 : unitR (marshalElems E S o v (x :: xs) i (par.map (SliceInfo.view st.mem)) st.m) =
        (marshalTo E S o x (if o.lessFunc.isSome then some (newParentInfo v (par.map (SliceInfo.view st.mem)) (intKey i)) else none) st1.m >>= fun y =>
          unitR (marshalElems E S o v xs (i + 1) (par.map (SliceInfo.view st.mem)) y.1)) := by
      simp only [marshalElems, unitR, st1, PSt.on]
      generalize marshalTo E S o x _ _ = r
      cases r <;> rfl
    rw [e1, e2]
    refine same_bind ?_ fun st' y hb => ?_
    · by_cases hl : o.lessFunc.isSome = true
      · rw [if_pos hl, if_pos hl]
        have hs := newSliceInfo_spec (grow := grow) v (intKey i) hp
        apply same_below (grow := grow) (v := v) (k := intKey i) hp
        rw [← hs.1]
        exact hx _ { st1 with mem := (newSliceInfo grow st.mem v par (intKey i)).1 } hs.2.1
      · rw [if_neg hl, if_neg hl]
        exact same_none (hx none st1 fun p hp => by cases hp)
    · rw [← behind_view hb hp]
      exact same_marshalElems E S hS o grow v xs (i + 1) par st' (behind_in hb hp)
theorem same_members (E : Env) (S : SortFn) (hS : GoodSort S) (o : Opt) (grow : Nat → Nat) : ∀ (kvs : List Ent), ∀ e ∈ kvs, SameWriter (marshalToP E S o grow e.v) (marshalTo E S o e.v)
  | [], e, he => absurd he List.not_mem_nil
  | ⟨k, i, v⟩ :: es, e, he => by
    have hv := same_marshalTo E S hS o grow v
    have hes := same_members E S hS o grow es
    rcases List.mem_cons.1 he with h | h
    · rw [h]; exact hv
    · exact hes e h
end

/-- the whole call -/
theorem marshalP_eq (E : Env) (S : SortFn) (hS : GoodSort S) (d : Opt) (grow : Nat → Nat) (v : V) (opts : List MOpt) :
    (marshalP E S d grow v opts >>= fun r => .ok r.1) = marshal E S d v opts := by
  have h := same_marshalTo E S hS (combineOptions d opts) grow v none {} (fun p hp => by cases hp)
  have hc : ∀ (v : V), v ≠ .nilp → v ≠ .notExist → marshalP E S d grow v opts = (marshalToP E S (combineOptions d opts) grow v none {} >>= fun x =>
      match x.2 with | some e => .ok (([], some e), x.1) | none => .ok ((x.1.m.buf, none), x.1)) ∧
      marshal E S d v opts = (marshalTo E S (combineOptions d opts) v none {} >>= fun x =>
      match x.2 with | some e => .ok ([], some e) | none => .ok (x.1.buf, none)) := by
    intro v h1 h2
    cases v <;> first | exact absurd rfl h1 | exact absurd rfl h2 | exact ⟨rfl, rfl⟩
  by_cases h1 : v = .nilp
  · subst h1; rfl
  by_cases h2 : v = .notExist
  · subst h2; rfl
  rw [(hc v h1 h2).1, (hc v h1 h2).2]
  simp only [Option.map_none] at h
  cases hr : marshalToP E S (combineOptions d opts) grow v none {} with
  | ok p =>
    obtain ⟨st, e⟩ := p
    rw [hr] at h
    rw [h.1]
    cases e <;> rfl
  | err e => rw [hr] at h; rw [show marshalTo E S (combineOptions d opts) v none {} = _ from h]; rfl
  | panic => rw [hr] at h; rw [show marshalTo E S (combineOptions d opts) v none {} = _ from h]; rfl
  | diverge => rw [hr] at h; rw [show marshalTo E S (combineOptions d opts) v none {} = _ from h]; rfl

end JV
