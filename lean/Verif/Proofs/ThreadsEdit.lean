import Verif.Proofs.ThreadsGet
import Verif.Spec.ThreadsEdit
/-! What Set gives to code that knows the state of all that it reads. -/
namespace JV
open Spec

variable {α : Type}

/-- What the code does not need to know stays as it is. -/
theorem predicts_frame {o : Opt} {Q : Known → R α → Prop} : ∀ {p : Act α} {L K : Known}, Predicts o Q L p → Extends L K →
    Predicts o (fun K' r => ∃ L', Q L' r ∧ Extends L' K' ∧ ∀ b, L b = none → K b ≠ none → L' b = none ∧ K' b = K b) K p
  | .ret r, L, K, h, he => ⟨L, h, he, fun _ h _ => ⟨h, rfl⟩⟩
  | .read a k, L, K, ⟨c, h1, h2⟩, he => ⟨c, he a c h1, predicts_frame h2 he⟩
  | .readIndex a k, L, K, ⟨c, h1, h2⟩, he => ⟨c, he a c h1, predicts_frame h2 he⟩
  | .readOptions k, L, K, h, he => predicts_frame (p := k o) h he
  | .write a c k, L, K, ⟨d, h1, h2⟩, he => ⟨d, he a d h1, predicts_mono (frame_upd h1) (predicts_frame h2 (extends_both he))⟩
  | .writeIndex a l k, L, K, ⟨d, h1, h2⟩, he => ⟨d, he a d h1, predicts_mono (frame_upd h1) (predicts_frame h2 (extends_both he))⟩
  | .writeOptions _ _, _, _, h, _ => h.elim
  | .alloc c k, L, K, h, he => fun a ha => by
    have hl : L a = none := by
      cases hc : L a with
      | none => rfl
      | some d => rw [he a d hc] at ha; cases ha
    refine predicts_mono (fun K' r h => ?_) (predicts_frame (h a hl) (extends_both he))
    obtain ⟨L', h1, h2, h3⟩ := h
    refine ⟨L', h1, h2, fun b hb hb' => ?_⟩
    have hne : b ≠ a := fun e => hb' (e ▸ ha)
    have := h3 b (by unfold upd; rw [if_neg hne]; exact hb) (by unfold upd; rw [if_neg hne]; exact hb')
    unfold upd at this
    rwa [if_neg hne] at this
where
  extends_both {L K : Known} {a : Nat} {c : Cell} (h : Extends L K) : Extends (upd L a c) (upd K a c) := by
    intro b d hb
    unfold upd at hb ⊢
    split
    · next e => rw [if_pos e] at hb; exact hb
    · next e => rw [if_neg e] at hb; exact h b d hb
  frame_upd {Q : Known → R α → Prop} {L K : Known} {a : Nat} {c c' d : Cell} (hd : L a = some d) (K' : Known) (r : R α)
      (h : ∃ L', Q L' r ∧ Extends L' K' ∧ ∀ b, upd L a c b = none → upd K a c' b ≠ none → L' b = none ∧ K' b = upd K a c' b) :
      ∃ L', Q L' r ∧ Extends L' K' ∧ ∀ b, L b = none → K b ≠ none → L' b = none ∧ K' b = K b := by
    obtain ⟨L', h1, h2, h3⟩ := h
    refine ⟨L', h1, h2, fun b hb hb' => ?_⟩
    have hne : b ≠ a := fun e => by rw [e, hd] at hb; cases hb
    have := h3 b (by unfold upd; rw [if_neg hne]; exact hb) (by unfold upd; rw [if_neg hne]; exact hb')
    unfold upd at this
    rwa [if_neg hne] at this

/-- all but `a` -/
def without (K : Known) (a : Nat) : Known := fun b => if b = a then none else K b

theorem without_self (K : Known) (a : Nat) : without K a a = none := by unfold without; rw [if_pos rfl]
theorem without_extends (K : Known) (a : Nat) : Extends (without K a) K := by
  intro b c h
  unfold without at h
  split at h
  · cases h
  · exact h
theorem without_upd (K : Known) (a : Nat) (c : Cell) : without (upd K a c) a = without K a := by
  funext b
  unfold without upd
  split <;> rfl
theorem without_of {L K : Known} {a : Nat} (h : Extends L K) (ha : L a = none) : Extends L (without K a) := by
  intro b c hb
  unfold without
  split
  · next e => rw [e, ha] at hb; cases hb
  · exact h b c hb

/-- the parts of the document are below the cell -/
def Under (K : Known) : Cell → V → Prop
  | .arr ps, .arr ts => HungL K ps ts
  | .obj n es l, .obj n' ts l' => n = n' ∧ l = l' ∧ HungE K es ts
  | c, t => LeafOf c t

/-- a document whose first object is in no other place of it -/
inductive Root (K : Known) : Ptr → V → Prop
  | nil : Root K none .nilp
  | some (a : Nat) (c : Cell) (t : V) (ha : K a = .some c) (h : Under (without K a) c t) : Root K (.some a) t

theorem root_hung {K : Known} {p : Ptr} {t : V} (h : Root K p t) : Hung K p t := by
  cases h with
  | nil => exact .nil
  | some a c t ha h =>
    cases c <;> cases t <;> first | exact .leaf a _ _ ha h | exact h.elim | skip
    · exact .arr a _ _ ha (hungL_mono (without_extends K a) h)
    · obtain ⟨rfl, rfl, h⟩ := h; exact .obj a _ _ _ _ _ ha (hungE_mono (without_extends K a) h)

theorem root_new {K : Known} {a : Nat} {c : Cell} {t : V} (ha : K a = none) (h : Under K c t) : Root (upd K a c) (some a) t := by
  refine .some a c t upd_self ?_
  have : without (upd K a c) a = K := by
    rw [without_upd]
    funext b
    unfold without
    split
    · next e => rw [e, ha]
    · rfl
  rw [this]
  exact h

theorem predicts_root {o : Opt} (t : V) (K : Known) : Predicts o (fun K' r => ∃ p, r = .ok p ∧ Root K' p t) K (aBuild t) := by
  cases t with
  | nilp => unfold aBuild; exact ⟨_, rfl, .nil⟩
  | notExist => unfold aBuild; exact predicts_new fun a ha => ⟨_, rfl, root_new ha trivial⟩
  | str s => unfold aBuild; exact predicts_new fun a ha => ⟨_, rfl, root_new ha rfl⟩
  | num s n => unfold aBuild; exact predicts_new fun a ha => ⟨_, rfl, root_new ha ⟨rfl, rfl⟩⟩
  | bool b => unfold aBuild; exact predicts_new fun a ha => ⟨_, rfl, root_new ha rfl⟩
  | null => unfold aBuild; exact predicts_new fun a ha => ⟨_, rfl, root_new ha trivial⟩
  | arr xs =>
    unfold aBuild
    exact predicts_onOk (predicts_builds xs K) fun K' ps ⟨_, h⟩ => predicts_new fun a ha => ⟨_, rfl, root_new ha h⟩
  | obj n kvs low =>
    unfold aBuild
    exact predicts_onOk (predicts_buildEnts kvs K) fun K' ps ⟨_, h⟩ => predicts_new fun a ha => ⟨_, rfl, root_new ha ⟨rfl, rfl, h⟩⟩

theorem hungE_assign {K : Known} {k : Bytes} {i : BitVec 32} {c : Ptr} {u : V} (hc : Hung K c u) : ∀ {es : List HEnt} {ts : List Ent}, HungE K es ts →
    HungE K (hassign ⟨k, i, c⟩ es) (assign ⟨k, i, u⟩ ts)
  | _, _, .nil => .cons _ _ _ _ _ _ hc .nil
  | _, _, .cons k' j p es t ts h hs => by
    unfold hassign assign
    by_cases e : k' = k
    · rw [if_pos e, if_pos (by exact e)]; exact .cons _ _ _ _ _ _ hc hs
    · rw [if_neg e, if_neg (by exact e)]; exact .cons _ _ _ _ _ _ h (hungE_assign hc hs)

theorem hungL_snoc {K : Known} {c : Ptr} {u : V} (hc : Hung K c u) : ∀ {ps : List Ptr} {ts : List V}, HungL K ps ts → HungL K (ps ++ [c]) (ts ++ [u])
  | _, _, .nil => .cons _ _ _ _ hc .nil
  | _, _, .cons p ps t ts h hs => .cons _ _ _ _ h (hungL_snoc hc hs)

theorem hungL_set {K : Known} {c : Ptr} {u : V} (hc : Hung K c u) : ∀ {ps : List Ptr} {ts : List V} (n : Nat), HungL K ps ts → HungL K (ps.set n c) (ts.set n u)
  | _, _, _, .nil => .nil
  | _, _, 0, .cons p ps t ts h hs => .cons _ _ _ _ hc hs
  | _, _, n + 1, .cons p ps t ts h hs => .cons _ _ _ _ h (hungL_set hc n hs)

theorem under_uninit {K : Known} {c : Cell} {t : V} (h : Under K c t) : t.uninit = true ↔ c.plain = .notExist := by
  cases c <;> cases t <;> first | exact h.elim | simp [V.uninit, Cell.plain]

theorem hung_uninit {K : Known} {p : Ptr} {t : V} (h : Hung K p t) : (t.uninit = true ∧ (p = none ∨ ∃ a c, p = some a ∧ K a = some c ∧ c.plain = .notExist)) ∨
    (t.uninit = false ∧ ∃ a c, p = some a ∧ K a = some c ∧ c.plain ≠ .notExist) := by
  cases h with
  | nil => exact .inl ⟨rfl, .inl rfl⟩
  | leaf a c t ha hc =>
    cases c <;> cases t <;> first | exact hc.elim | exact .inl ⟨rfl, .inr ⟨a, _, rfl, ha, rfl⟩⟩ | exact .inr ⟨rfl, a, _, rfl, ha, by simp [Cell.plain]⟩
  | arr a ps ts ha h => exact .inr ⟨rfl, a, _, rfl, ha, by simp [Cell.plain]⟩
  | obj a n es l l' ts ha h => exact .inr ⟨rfl, a, _, rfl, ha, by simp [Cell.plain]⟩

theorem predicts_uninit {o : Opt} {Q : Known → R α → Prop} {K : Known} {p : Ptr} {t : V} {k : Bool → Act α} (h : Hung K p t) (hk : Predicts o Q K (k t.uninit)) :
    Predicts o Q K (aUninit p k) := by
  rcases hung_uninit h with ⟨h1, rfl | ⟨a, c, rfl, h2, h3⟩⟩ | ⟨h1, a, c, rfl, h2, h3⟩
  · rw [h1] at hk; exact hk
  · rw [h1] at hk
    refine ⟨c, h2, ?_⟩
    rw [h3]
    exact hk
  · rw [h1] at hk
    refine ⟨c, h2, ?_⟩
    generalize c.plain = d at h3
    cases d <;> first | exact absurd rfl h3 | exact hk

theorem predicts_setLast (E : Env) {o : Opt} {K : Known} {a : Nat} {c : Ptr} {t u : V} (q : Param) (ht : Root K (some a) t) (hc : Hung (without K a) c u) :
    Predicts o (fun K' _ => Root K' (some a) (atLastParam E t u q).1) K (aSetLast E (some a) c q) := by
  cases ht with
  | some _ d _ ha h =>
    refine ⟨d, ha, ?_⟩
    have hold : ∀ {r : R Ptr}, (atLastParam E t u q).1 = t → Predicts o (fun K' _ => Root K' (some a) (atLastParam E t u q).1) K (.ret r) := by
      intro r e
      show Root K (some a) _
      rw [e]
      exact .some a d t ha h
    cases d <;> cases t <;> first | exact h.elim | exact hold rfl | skip
    · next ps ts =>
      dsimp only [Cell.plain]
      unfold atLastParam at hold ⊢
      cases hp : anyToInt q with
      | ok pos =>
        rw [hp] at hold
        dsimp only at hold ⊢
        have h : HungL (without K a) ps ts := h
        unfold setAtIndex at hold ⊢
        rw [hungL_length h]
        by_cases e1 : pos = ts.length
        · rw [if_pos e1, if_pos e1]
          exact ⟨_, ha, .some a _ _ upd_self (by rw [without_upd]; exact hungL_snoc hc h)⟩
        · rw [if_neg e1, if_neg e1]
          rw [if_neg e1] at hold
          dsimp only at hold ⊢
          by_cases e2 : posForRead ts.length pos < 0
          · rw [if_pos e2] at hold
            rw [if_pos e2, if_pos e2]
            exact hold rfl
          · rw [if_neg e2] at hold ⊢
            rw [if_neg e2]
            by_cases e3 : (posForRead ts.length pos).toNat < ts.length
            · rw [if_pos e3, if_pos e3]
              exact ⟨_, ha, .some a _ _ upd_self (by rw [without_upd]; exact hungL_set hc _ h)⟩
            · rw [if_neg e3] at hold
              rw [if_neg e3, if_neg e3]
              exact hold rfl
      | err _ | panic | diverge => rw [hp] at hold; exact hold rfl
    · next n es l n' ts l' =>
      obtain ⟨rfl, rfl, h⟩ := h
      dsimp only [Cell.plain]
      unfold atLastParam at hold ⊢
      cases hp : anyToString q with
      | ok k =>
        dsimp only
        refine ⟨_, ha, _, upd_self, ?_⟩
        dsimp only [Cell.withIndex, Cell.index]
        have hu := hungE_assign (k := k) (i := n + 1) hc h
        cases l with
        | none => exact .some a _ _ upd_self (by rw [without_upd]; exact ⟨rfl, rfl, hu⟩)
        | some m => exact ⟨_, upd_self, .some a _ _ upd_self (by rw [without_upd, without_upd]; exact ⟨rfl, rfl, hu⟩)⟩
      | err _ | panic | diverge => rw [hp] at hold; exact hold rfl

theorem predicts_setOne (E : Env) {o : Opt} {K : Known} {p c : Ptr} {t u : V} (q : Param) (hq : q.isSlice = false) (ht : Root K p t)
    (hc : ∀ a, p = some a → Hung (without K a) c u) : Predicts o (fun K' _ => Root K' p (setAt E t u [q]).1) K (aSetAt E p c [q]) := by
  have e1 : aSetAt E p c [q] = aEither p c fun b => if b then .ret (.err .valueUninitialized) else aSetLast E p c q := by
    rw [aSetAt]
    cases q <;> first | rfl | cases hq
  have e2 : setAt E t u [q] = if t.uninit || u.uninit then (t, .err .valueUninitialized) else atLastParam E t u q := by
    rw [setAt]
    cases q <;> first | rfl | cases hq
  rw [e1, e2]
  unfold aEither
  refine predicts_uninit (root_hung ht) ?_
  cases h : t.uninit with
  | true => exact ht
  | false =>
    cases p with
    | none => cases ht; cases h
    | some a =>
      simp only [Bool.false_or, Bool.false_eq_true, if_false]
      refine predicts_uninit (hung_mono (without_extends K a) (hc a rfl)) ?_
      cases u.uninit with
      | true => exact ht
      | false => exact predicts_setLast E q ht (hc a rfl)

theorem hungL_append {K : Known} : ∀ {ps qs : List Ptr} {ts us : List V}, HungL K ps ts → HungL K qs us → HungL K (ps ++ qs) (ts ++ us)
  | _, _, _, _, .nil, h => h
  | _, _, _, _, .cons _ _ _ _ h hs, h' => .cons _ _ _ _ h (hungL_append hs h')

theorem hungL_take {K : Known} : ∀ {ps : List Ptr} {ts : List V} (n : Nat), HungL K ps ts → HungL K (ps.take n) (ts.take n)
  | _, _, 0, _ => .nil
  | _, _, _ + 1, .nil => .nil
  | _, _, n + 1, .cons _ _ _ _ h hs => .cons _ _ _ _ h (hungL_take n hs)

theorem hungL_drop {K : Known} : ∀ {ps : List Ptr} {ts : List V} (n : Nat), HungL K ps ts → HungL K (ps.drop n) (ts.drop n)
  | _, _, 0, h => h
  | _, _, _ + 1, .nil => .nil
  | _, _, n + 1, .cons _ _ _ _ _ hs => hungL_drop n hs

theorem hungL_copyAt {K : Known} {ps qs : List Ptr} {ts us : List V} (n : Nat) (h : HungL K ps ts) (h' : HungL K qs us) : HungL K (copyAt ps n qs) (copyAt ts n us) := by
  unfold copyAt
  rw [hungL_length h, hungL_length h']
  exact hungL_append (hungL_append (hungL_take _ h) (hungL_take _ h')) (hungL_drop _ h)

theorem hungL_insert {K : Known} {c : Ptr} {u : V} (hc : Hung K c u) {ps : List Ptr} {ts : List V} (n : Nat) (h : HungL K ps ts) :
    (∃ qs us, insertToArr ps n c = .ok qs ∧ insertToArr ts n u = .ok us ∧ HungL K qs us) ∨ (insertToArr ps n c = .panic ∧ insertToArr ts n u = .panic) := by
  have h1 : HungL K (ps ++ [HasNil.nilv]) (ts ++ [HasNil.nilv]) := hungL_snoc .nil h
  have h2 := hungL_copyAt (n + 1) h1 (hungL_drop n h1)
  unfold insertToArr
  dsimp only
  rw [hungL_length h1, hungL_length h2]
  split
  · split
    · exact .inl ⟨_, _, rfl, rfl, hungL_set hc n h2⟩
    · exact .inr ⟨rfl, rfl⟩
  · exact .inr ⟨rfl, rfl⟩

theorem hungL_delete {K : Known} {ps : List Ptr} {ts : List V} (n : Nat) (h : HungL K ps ts) :
    (∃ qs us, deleteInArr ps n = .ok qs ∧ deleteInArr ts n = .ok us ∧ HungL K qs us) ∨ (deleteInArr ps n = .panic ∧ deleteInArr ts n = .panic) := by
  have h1 : HungL K (ps.set n HasNil.nilv) (ts.set n HasNil.nilv) := hungL_set .nil n h
  unfold deleteInArr
  dsimp only
  rw [hungL_length h]
  split
  · exact .inl ⟨_, _, rfl, rfl, hungL_take _ (hungL_copyAt n h1 (hungL_drop (n + 1) h1))⟩
  · exact .inr ⟨rfl, rfl⟩

theorem hungE_erase {K : Known} {k : Bytes} : ∀ {es : List HEnt} {ts : List Ent}, HungE K es ts → HungE K (herase k es) (erase k ts)
  | _, _, .nil => .nil
  | _, _, .cons k' j p es t ts h hs => by
    unfold herase erase
    by_cases e : k' = k
    · rw [if_pos e, if_pos (by exact e)]; exact hs
    · rw [if_neg e, if_neg (by exact e)]; exact .cons _ _ _ _ _ _ h (hungE_erase hs)

/-- the array is replaced -/
theorem root_write {K : Known} {a : Nat} {ps qs : List Ptr} {us : List V} (h : HungL (without K a) qs us) :
    Root (upd K a (Cell.withIndex (Cell.arr ps).index (.arr qs))) (some a) (.arr us) :=
  .some a _ _ upd_self (by rw [without_upd]; exact h)

theorem predicts_insertLast {o : Opt} {K : Known} {p c : Ptr} {t u : V} (after : Bool) (q : Param) (ht : Root K p t)
    (hc : ∀ a, p = some a → Hung (without K a) c u) : Predicts o (fun K' _ => Root K' p (insertLast after t u q).1) K (aInsertLast after p c q) := by
  cases ht with
  | nil => cases after <;> exact .nil
  | some a d t ha h =>
    replace hc := hc a rfl
    refine ⟨d, ha, ?_⟩
    have hold : ∀ {r : R Ptr}, Predicts o (fun K' _ => Root K' (some a) t) K (.ret r) := fun {r} => .some a d t ha h
    cases d <;> cases t <;> first | exact h.elim | exact hold (r := .ok none) | skip
    next ps ts =>
    have h : HungL (without K a) ps ts := h
    dsimp only [Cell.plain]
    unfold insertLast
    cases anyToInt q with
    | ok pos =>
      dsimp only
      rw [hungL_length h]
      generalize (if after = true then posForInsertAfter ts.length pos else (posForInsertBefore ts.length pos, false)) = z
      by_cases e1 : z.1 < 0
      · rw [if_pos e1, if_pos e1]; exact hold (r := .ok none)
      · rw [if_neg e1, if_neg e1]
        by_cases e2 : z.2 = true
        · rw [if_pos e2, if_pos e2]; exact ⟨_, ha, root_write (hungL_snoc hc h)⟩
        · rw [if_neg e2, if_neg e2]
          rcases hungL_insert hc z.1.toNat h with ⟨qs, us, h1, h2, h3⟩ | ⟨h1, h2⟩
          · rw [h1, h2]; exact ⟨_, ha, root_write h3⟩
          · rw [h1, h2]; exact hold (r := .ok none)
    | err _ | panic | diverge => exact hold (r := .ok none)

theorem predicts_append0 (E : Env) {o : Opt} {K : Known} {p c : Ptr} {t u : V} (beg : Bool) (ht : Root K p t)
    (hc : ∀ a, p = some a → Hung (without K a) c u) : Predicts o (fun K' _ => Root K' p (appendAt E beg t u []).1) K (aAppendAt E beg p c []) := by
  cases ht with
  | nil => cases beg <;> exact .nil
  | some a d t ha h =>
    replace hc := hc a rfl
    refine ⟨d, ha, ?_⟩
    have hold : ∀ {r : R Ptr}, Predicts o (fun K' _ => Root K' (some a) t) K (.ret r) := fun {r} => .some a d t ha h
    cases d <;> cases t <;> first | exact h.elim | exact hold (r := .ok none) | skip
    next ps ts =>
    have h : HungL (without K a) ps ts := h
    have he : ps.isEmpty = ts.isEmpty := by cases h <;> rfl
    refine ⟨_, ha, ?_⟩
    rw [appendAt]
    dsimp only [Cell.plain]
    unfold appendTo
    dsimp only
    rw [he]
    by_cases e1 : (beg && !ts.isEmpty) = true
    · rw [if_pos e1, if_pos e1]
      rcases hungL_insert hc 0 h with ⟨qs, us, h1, h2, h3⟩ | ⟨h1, h2⟩
      · rw [h1, h2]; exact ⟨_, ha, root_write h3⟩
      · rw [h1, h2]; exact hold (r := .ok none)
    · rw [if_neg e1, if_neg e1]; exact ⟨_, ha, root_write (hungL_snoc hc h)⟩

theorem predicts_deleteLast (E : Env) {o : Opt} {K : Known} {p : Ptr} {t : V} (q : Param) (ht : Root K p t) :
    Predicts o (fun K' _ => Root K' p (deleteLast E false t q).1) K (aDeleteLast E false p q) := by
  cases ht with
  | nil => exact .nil
  | some a d t ha h =>
    refine ⟨d, ha, ?_⟩
    have hold : ∀ {r : R Ptr}, Predicts o (fun K' _ => Root K' (some a) t) K (.ret r) := fun {r} => .some a d t ha h
    cases d <;> cases t <;> first | exact h.elim | exact hold (r := .ok none) | skip
    · next ps ts =>
      have h : HungL (without K a) ps ts := h
      dsimp only [Cell.plain]
      unfold deleteLast
      cases anyToInt q with
      | ok pos =>
        dsimp only
        rw [hungL_length h]
        by_cases e1 : posForRead ts.length pos < 0
        · rw [if_pos e1, if_pos e1]; exact hold (r := .ok none)
        · rw [if_neg e1, if_neg e1]
          rcases hungL_delete (posForRead ts.length pos).toNat h with ⟨qs, us, h1, h2, h3⟩ | ⟨h1, h2⟩
          · rw [h1, h2]; exact ⟨_, ha, root_write h3⟩
          · rw [h1, h2]; exact hold (r := .ok none)
      | err _ | panic | diverge => exact hold (r := .ok none)
    · next n es l n' ts l' =>
      obtain ⟨rfl, rfl, h⟩ := h
      dsimp only [Cell.plain]
      unfold deleteLast
      cases anyToString q with
      | ok k =>
        dsimp only
        unfold aDelKey delKey findKey
        rcases hungE_lookup k h with ⟨e, t, h1, h2, -⟩ | ⟨h1, h2⟩
        · rw [h1, h2]
          dsimp only [Option.isSome]
          rw [if_pos rfl]
          dsimp only
          refine ⟨_, ha, _, upd_self, ?_⟩
          have hu := hungE_erase (k := k) h
          cases l with
          | none => exact .some a _ _ upd_self (by rw [without_upd]; exact ⟨rfl, rfl, hu⟩)
          | some m => exact ⟨_, upd_self, .some a _ _ upd_self (by rw [without_upd, without_upd]; exact ⟨rfl, rfl, hu⟩)⟩
        · rw [h1, h2]
          exact hold (r := .ok none)
      | err _ | panic | diverge => exact hold (r := .ok none)

/-- a new document beside the one that is there -/
theorem predicts_beside {o : Opt} {K : Known} {p : Ptr} {t : V} (u : V) (ht : Root K p t) :
    Predicts o (fun K' r => ∃ c, r = .ok c ∧ Root K' p t ∧ ∀ a, p = some a → Hung (without K' a) c u) K (aBuild u) := by
  cases ht with
  | nil => exact predicts_mono (fun K' r ⟨c, h, _⟩ => ⟨c, h, .nil, fun a e => by cases e⟩) (predicts_build u K)
  | some a d t ha h =>
    refine predicts_mono (fun K' r h' => ?_) (predicts_frame (predicts_build u (without K a)) (without_extends K a))
    obtain ⟨L, ⟨c, rfl, h1, h2⟩, h3, h4⟩ := h'
    obtain ⟨h5, h6⟩ := h4 a (without_self K a) (by rw [ha]; simp)
    have hx := without_of h3 h5
    refine ⟨c, rfl, .some a d t (h6.trans ha) ?_, fun b e => ?_⟩
    · have he := extends_trans h1 hx
      cases d <;> cases t <;> first | exact h | skip
      · exact hungL_mono he h
      · exact ⟨h.1, h.2.1, hungE_mono he h.2.2⟩
    · cases e; exact hung_mono hx h2

theorem predicts_edit (E : Env) {o : Opt} (e : Alter) (he : e.Fresh) {K : Known} {p : Ptr} {t : V} (ht : Root K p t) :
    Predicts o (fun K' _ => Root K' p (e.result E t)) K (e.act E p) := by
  cases e with
  | set u q => exact predicts_onOk (predicts_beside u ht) fun K' c ⟨h1, h2⟩ => predicts_setOne E q he.1 h1 h2
  | insert after u q =>
    refine predicts_onOk (predicts_beside u ht) fun K' c ⟨h1, h2⟩ => ?_
    have e1 : aInsertAt E after p c [] [q] = aInsertLast after p c q := by
      rw [aInsertAt]
      cases q <;> first | rfl | cases he.1
    have e2 : (Alter.insert after u q).result E t = (insertLast after t u q).1 := by
      show (insertAt E after t u [] [q]).1 = _
      rw [insertAt]
      cases q <;> first | rfl | cases he.1
    rw [e1, e2]
    exact predicts_insertLast after q h1 h2
  | append beg u => exact predicts_onOk (predicts_beside u ht) fun K' c ⟨h1, h2⟩ => predicts_append0 E beg h1 h2
  | delete q =>
    have e1 : (Alter.delete q).act E p = aDeleteLast E false p q := by
      show aDeleteAt E false p [] [q] = _
      rw [aDeleteAt]
      cases q <;> first | rfl | cases he
    have e2 : (Alter.delete q).result E t = (deleteLast E false t q).1 := by
      show (deleteAt E false t [] [q]).1 = _
      rw [deleteAt]
      cases q <;> first | rfl | cases he
    rw [e1, e2]
    exact predicts_deleteLast E q ht

theorem predicts_edits (E : Env) {o : Opt} : ∀ (l : List Alter) {K : Known} {p : Ptr} {t : V}, (∀ e ∈ l, e.Fresh) → Root K p t →
    Predicts o (fun K' r => ∃ u, r = .ok u ∧ Root K' p (edited E t l)) K (aEdits E p l)
  | [], K, p, t, _, ht => ⟨_, rfl, ht⟩
  | e :: l, K, p, t, hl, ht => by
    unfold aEdits edited
    have ih := fun {K : Known} {p : Ptr} {t : V} (h : Root K p t) => predicts_edits E (o := o) l (fun x hx => hl x (List.mem_cons_of_mem _ hx)) h
    exact predicts_andThen (fun K' r h => ih h) (predicts_edit E e (hl e List.mem_cons_self) ht)

theorem noIndexM_assign {e : Ent} (he : noIndex e.v = e.v) : ∀ {ts : List Ent}, noIndexM ts = ts → noIndexM (assign e ts) = assign e ts
  | [], _ => by obtain ⟨k, i, v⟩ := e; simp only [assign, noIndexM]; rw [show noIndex v = v from he]
  | .mk k i v :: ts, h => by
    simp only [noIndexM, List.cons.injEq, Ent.mk.injEq, true_and] at h
    obtain ⟨k', i', v'⟩ := e
    unfold assign
    split
    · simp only [noIndexM]; rw [show noIndex v' = v' from he, h.2]
    · simp only [noIndexM]; rw [h.1, noIndexM_assign he h.2]

theorem noIndexL_append {u : V} (hu : noIndex u = u) : ∀ {ts : List V}, noIndexL ts = ts → noIndexL (ts ++ [u]) = ts ++ [u]
  | [], _ => by simp only [List.nil_append, noIndexL, hu]
  | t :: ts, h => by
    simp only [noIndexL, List.cons.injEq] at h
    simp only [List.cons_append, noIndexL, h.1, noIndexL_append hu h.2]

theorem noIndexL_set {u : V} (hu : noIndex u = u) : ∀ {ts : List V} (n : Nat), noIndexL ts = ts → noIndexL (ts.set n u) = ts.set n u
  | [], _, _ => rfl
  | t :: ts, 0, h => by simp only [noIndexL, List.cons.injEq] at h; simp only [List.set, noIndexL, hu, h.2]
  | t :: ts, n + 1, h => by simp only [noIndexL, List.cons.injEq] at h; simp only [List.set, noIndexL, h.1, noIndexL_set hu n h.2]

theorem noIndex_setLast (E : Env) {t u : V} (q : Param) (ht : noIndex t = t) (hu : noIndex u = u) : noIndex (atLastParam E t u q).1 = (atLastParam E t u q).1 := by
  unfold atLastParam
  split
  · next n kvs low =>
    split
    · simp only [noIndex, V.obj.injEq, true_and] at ht
      obtain ⟨h1, rfl⟩ := ht
      simp only [setKey, noIndex]
      rw [noIndexM_assign (e := .mk _ _ u) hu h1]
      rfl
    · exact ht
    · exact ht
  · next xs =>
    have h1 : noIndexL xs = xs := by simpa [noIndex] using ht
    split
    · split
      · next ys i hs =>
        simp only [noIndex]
        unfold setAtIndex at hs
        dsimp only at hs
        split at hs
        · cases hs; rw [noIndexL_append hu h1]
        · split at hs
          · cases hs
          · split at hs
            · cases hs; rw [noIndexL_set hu _ h1]
            · cases hs
      · exact ht
      · exact ht
    · exact ht
    · exact ht
  · exact ht

theorem noIndexL_iff : ∀ {ts : List V}, noIndexL ts = ts ↔ ∀ t ∈ ts, noIndex t = t
  | [] => by simp [noIndexL]
  | t :: ts => by simp [noIndexL, noIndexL_iff (ts := ts)]

theorem noIndexM_erase {k : Bytes} : ∀ {ts : List Ent}, noIndexM ts = ts → noIndexM (erase k ts) = erase k ts
  | [], _ => rfl
  | .mk k' i v :: ts, h => by
    simp only [noIndexM, List.cons.injEq, Ent.mk.injEq, true_and] at h
    unfold erase
    split
    · exact h.2
    · simp only [noIndexM]; rw [h.1, noIndexM_erase h.2]

theorem copyAt_from {α : Type} {xs ys : List α} {n : Nat} {x : α} (h : x ∈ copyAt xs n ys) : x ∈ xs ∨ x ∈ ys := by
  unfold copyAt at h
  simp only [List.mem_append] at h
  rcases h with (h | h) | h
  · exact .inl (List.mem_of_mem_take h)
  · exact .inr (List.mem_of_mem_take h)
  · exact .inl (List.mem_of_mem_drop h)

theorem insertToArr_from {xs ys : List V} {n : Nat} {c x : V} (h : insertToArr xs n c = .ok ys) (hx : x ∈ ys) : x ∈ xs ∨ x = .nilp ∨ x = c := by
  unfold insertToArr at h
  dsimp only at h
  split at h
  · split at h
    · cases h
      rcases List.mem_or_eq_of_mem_set hx with hx | rfl
      · have : x ∈ xs ++ [HasNil.nilv] := by
          rcases copyAt_from hx with h | h
          · exact h
          · exact List.mem_of_mem_drop h
        rcases List.mem_append.1 this with h | h
        · exact .inl h
        · exact .inr (.inl (List.mem_singleton.1 h))
      · exact .inr (.inr rfl)
    · cases h
  · cases h

theorem deleteInArr_from {xs ys : List V} {n : Nat} {x : V} (h : deleteInArr xs n = .ok ys) (hx : x ∈ ys) : x ∈ xs ∨ x = .nilp := by
  unfold deleteInArr at h
  dsimp only at h
  split at h
  · cases h
    have : x ∈ xs.set n HasNil.nilv := by
      rcases copyAt_from (List.mem_of_mem_take hx) with h | h
      · exact h
      · exact List.mem_of_mem_drop h
    exact List.mem_or_eq_of_mem_set this
  · cases h

theorem noIndex_insertToArr {xs ys : List V} {n : Nat} {c : V} (h : insertToArr xs n c = .ok ys) (hx : noIndexL xs = xs) (hc : noIndex c = c) : noIndexL ys = ys :=
  noIndexL_iff.2 fun t ht => by
    rcases insertToArr_from h ht with h | rfl | rfl
    · exact noIndexL_iff.1 hx t h
    · rfl
    · exact hc

theorem noIndex_result (E : Env) {t : V} (e : Alter) (he : e.Fresh) (ht : noIndex t = t) : noIndex (e.result E t) = e.result E t := by
  cases e with
  | set u q =>
    have e2 : (Alter.set u q).result E t = (if t.uninit || u.uninit then (t, .err .valueUninitialized) else atLastParam E t u q).1 := by
      show (setAt E t u [q]).1 = _
      rw [setAt]
      cases q <;> first | rfl | cases he.1
    rw [e2]
    split
    · exact ht
    · exact noIndex_setLast E q ht he.2
  | insert after u q =>
    have e2 : (Alter.insert after u q).result E t = (insertLast after t u q).1 := by
      show (insertAt E after t u [] [q]).1 = _
      rw [insertAt]
      cases q <;> first | rfl | cases he.1
    rw [e2]
    cases t with
    | arr xs =>
      have h1 : noIndexL xs = xs := by simpa [noIndex] using ht
      unfold insertLast
      dsimp only
      split
      · next pos _ =>
        generalize (if after = true then posForInsertAfter xs.length pos else (posForInsertBefore xs.length pos, false)) = z
        split
        · exact ht
        · split
          · simp only [noIndex]; rw [noIndexL_append he.2 h1]
          · split
            · next hi => simp only [noIndex]; rw [noIndex_insertToArr hi h1 he.2]
            · exact ht
      · exact ht
      · exact ht
    | nilp => cases after <;> rfl
    | _ => exact ht
  | append beg u =>
    show noIndex (appendAt E beg t u []).1 = (appendAt E beg t u []).1
    cases t with
    | arr xs =>
      have h1 : noIndexL xs = xs := by simpa [noIndex] using ht
      show noIndex (appendTo beg (.arr xs) u).1 = (appendTo beg (.arr xs) u).1
      unfold appendTo
      dsimp only
      split
      · split
        · next hi => simp only [noIndex]; rw [noIndex_insertToArr hi h1 he]
        · exact ht
      · simp only [noIndex]; rw [noIndexL_append he h1]
    | nilp => cases beg <;> rfl
    | _ => exact ht
  | delete q =>
    have e2 : (Alter.delete q).result E t = (deleteLast E false t q).1 := by
      show (deleteAt E false t [] [q]).1 = _
      rw [deleteAt]
      cases q <;> first | rfl | cases he
    rw [e2]
    cases t with
    | arr xs =>
      have h1 : noIndexL xs = xs := by simpa [noIndex] using ht
      unfold deleteLast
      dsimp only
      split
      · split
        · exact ht
        · split
          · next hi =>
            simp only [noIndex]
            rw [noIndexL_iff.2 fun t ht => (deleteInArr_from hi ht).elim (noIndexL_iff.1 h1 t) (fun e => by rw [e]; rfl)]
          · exact ht
      · exact ht
      · exact ht
    | obj n kvs low =>
      simp only [noIndex, V.obj.injEq, true_and] at ht
      obtain ⟨h1, rfl⟩ := ht
      have ht : noIndex (.obj n kvs none) = .obj n kvs none := by simp only [noIndex, h1]
      unfold deleteLast
      dsimp only
      cases anyToString q with
      | ok k =>
        dsimp only
        unfold delKey findKey
        by_cases hk : (lookup k kvs).isSome = true
        · rw [if_pos hk]
          simp only [noIndex, noIndexM_erase h1]
          rfl
        · rw [if_neg hk]
          exact ht
      | err _ | panic | diverge => exact ht
    | _ => exact ht

theorem noIndex_edited (E : Env) : ∀ (l : List Alter) {t : V}, (∀ e ∈ l, e.Fresh) → noIndex t = t → noIndex (edited E t l) = edited E t l
  | [], t, _, ht => ht
  | e :: l, t, hl, ht => by
    unfold edited
    exact noIndex_edited E l (fun x hx => hl x (List.mem_cons_of_mem _ hx)) (noIndex_result E e (hl e List.mem_cons_self) ht)

end JV
