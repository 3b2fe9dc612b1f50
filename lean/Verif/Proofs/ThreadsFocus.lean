import Verif.Proofs.ThreadsSole
/-! Get on documents whose objects are in one place each, and what is done to what it finds. -/
namespace JV
open Spec

variable {α : Type}

/-- the document with another one at a location -/
def putAt : V → List Step → V → V
  | _, [], u => u
  | t, s :: l, u => match t.child s with
    | some c => t.put s (putAt c l u)
    | none => t

theorem modify_at {β : Type} (f : V → V × R β) : ∀ {l : List Step} {t u : V}, t.at l = some u → t.modify f l = (putAt t l (f u).1, (f u).2)
  | [], t, u, h => by cases h; rfl
  | s :: l, t, u, h => by
    unfold V.at at h
    unfold V.modify putAt
    split at h
    · next c hc =>
      rw [hc]
      dsimp only
      rw [modify_at f h]
    · cases h

/-- at `q` is the part `u` at `l` of the document, and nothing of the rest is there -/
def Focus (L : Known) (p : Ptr) (t : V) (l : List Step) (q : Ptr) (u : V) : Prop :=
  ∃ L1 L2, Sole L1 q u ∧ Disj L1 L2 ∧ Extends L1 L ∧ Extends L2 L ∧
    ∀ K L' u', Sole L' q u' → Disj L' L2 → Extends L' K → Extends L2 K → Sole K p (putAt t l u')

theorem sole_beyond {L L2 : Known} {a : Nat} {d : Cell} (ha : L a = some d) (h : Extends L2 (without L a)) : Extends (upd L2 a d) L ∧ Extends L2 (upd L2 a d) := by
  have hn : L2 a = none := by
    cases e : L2 a with
    | none => rfl
    | some y => have := h a y e; rw [without_self] at this; cases this
  refine ⟨fun b c hb => ?_, extends_upd d hn⟩
  unfold upd at hb
  split at hb
  · next e => cases hb; rw [e]; exact ha
  · exact extends_trans h (without_extends L a) b c hb

theorem disj_beyond {L L1 L2 : Known} {a : Nat} {d : Cell} (h : Extends L1 (without L a)) (hd : Disj L1 L2) : Disj L1 (upd L2 a d) := fun b hb => by
  unfold upd
  split
  · next e =>
    subst e
    exact absurd (by
      cases e : L1 b with
      | none => rfl
      | some y => have := h b y e; rw [without_self] at this; cases this) hb
  · exact hd b hb

theorem focus_arr {L : Known} {a : Nat} {ps : List Ptr} {ts : List V} {n : Nat} {p : Ptr} {u : V} (ha : L a = some (.arr ps)) (h : SoleL (without L a) ps ts)
    (hp : ps[n]? = some p) (hu : ts[n]? = some u) : Focus L (some a) (.arr ts) [.idx n] p u := by
  rcases soleL_part n h with ⟨g1, g2⟩ | ⟨q, w, L1, L2, g1, g2, g3, g4, g5, g6, g7⟩
  · rw [hp] at g1; cases g1
  · rw [hp] at g1; rw [hu] at g2; cases g1; cases g2
    have hb := sole_beyond ha g6
    refine ⟨L1, upd L2 a (.arr ps), g3, disj_beyond g5 g4, extends_trans g5 (without_extends L a), hb.1, fun K L' u' k1 k2 k3 k4 => ?_⟩
    have e : putAt (.arr ts) [.idx n] u' = .arr (ts.set n u') := by
      unfold putAt
      rw [show (V.arr ts).child (.idx n) = some u from hu]
      rfl
    rw [e]
    have hl : L' a = none := disj_symm k2 a (by rw [upd_self]; simp)
    have h2 : L2 a = none := by
      cases e : L2 a with
      | none => rfl
      | some y => have := g6 a y e; rw [without_self] at this; cases this
    exact .arr _ a ps _ (k4 a _ upd_self) (g7 _ L' u' k1 (disj_mono k2 (extends_refl _) hb.2) (without_of k3 hl) (without_of (extends_trans hb.2 k4) h2))

theorem focus_obj {L : Known} {a : Nat} {n : BitVec 32} {es : List HEnt} {l : Low} {ts : List Ent} {k : Bytes} {e : HEnt} {u : Ent}
    (ha : L a = some (.obj n es l)) (h : SoleE (without L a) es ts)
    (hp : hlookup k es = some e) (hu : lookup k ts = some u) : Focus L (some a) (.obj n ts l) [.key k] e.v u.v := by
  rcases soleE_part k h with ⟨g1, g2⟩ | ⟨q, w, L1, L2, g1, g2, g3, g4, g5, g6, g7⟩
  · rw [hp] at g1; cases g1
  · rw [hp] at g1; rw [hu] at g2; cases g1; cases g2
    have hb := sole_beyond ha g6
    refine ⟨L1, upd L2 a (.obj n es l), g3, disj_beyond g5 g4, extends_trans g5 (without_extends L a), hb.1, fun K L' u' k1 k2 k3 k4 => ?_⟩
    have e' : putAt (.obj n ts l) [.key k] u' = .obj n (putKey k u' ts) l := by
      unfold putAt
      rw [show (V.obj n ts l).child (.key k) = some u.v by simp [V.child, hu]]
      rfl
    rw [e']
    have hl : L' a = none := disj_symm k2 a (by rw [upd_self]; simp)
    have h2 : L2 a = none := by
      cases e : L2 a with
      | none => rfl
      | some y => have := g6 a y e; rw [without_self] at this; cases this
    exact .obj _ a n es l _ (k4 a _ upd_self) (g7 _ L' u' k1 (disj_mono k2 (extends_refl _) hb.2) (without_of k3 hl) (without_of (extends_trans hb.2 k4) h2))

theorem focus_trans {L : Known} {p c q : Ptr} {t u w : V} {s : Step} {l : List Step} (hc : t.child s = some u) {L1 L2 : Known} (g2 : Disj L1 L2)
    (g3 : Extends L1 L) (g4 : Extends L2 L) (g5 : ∀ K L' u', Sole L' c u' → Disj L' L2 → Extends L' K → Extends L2 K → Sole K p (putAt t [s] u'))
    (h' : Focus L1 c u l q w) : Focus L p t (s :: l) q w := by
  obtain ⟨M1, M2, m1, m2, m3, m4, m5⟩ := h'
  have d2 : Disj M2 L2 := disj_mono g2 m4 (extends_refl _)
  refine ⟨M1, both M2 L2, m1, disj_both m2 (disj_mono g2 m3 (extends_refl _)), extends_trans m3 g3, both_extends (extends_trans m4 g3) g4, fun K L' w' k1 k2 k3 k4 => ?_⟩
  have e1 : Disj L' M2 := disj_mono k2 (extends_refl _) both_left
  have e2 : Disj L' L2 := disj_mono k2 (extends_refl _) (both_right d2)
  have hs : Sole (both L' M2) c (putAt u l w') := m5 _ L' w' k1 e1 both_left (both_right e1)
  have := g5 K (both L' M2) _ hs (disj_symm (disj_both (disj_symm e2) (disj_symm d2))) (both_extends k3 (extends_trans both_left k4)) (extends_trans (both_right d2) k4)
  unfold putAt at this ⊢
  rw [hc] at this ⊢
  exact this

/-- the pointer to the part at the location, or the error; nothing was changed -/
def Reaching (L : Known) (p : Ptr) (t : V) (x : R (List Step)) (K : Known) : Known → R Ptr → Prop := fun K' r => K' = K ∧ match x with
  | .ok l => ∃ q u, r = .ok q ∧ t.at l = some u ∧ Focus L p t l q u
  | .err e => r = .err e
  | .panic => r = .panic
  | .diverge => r = .diverge

theorem reaching_locate (E : Env) {o : Opt} {K L : Known} {p : Ptr} {t : V} (q : Param) (h : Sole L p t) (he : Extends L K) :
    Predicts o (Reaching L p t (do let s ← (locate E false t q).2; pure [s]) K) K (aLocate E false p q) := by
  cases h with
  | nil => exact ⟨rfl, rfl⟩
  | leaf _ a c t ha hc =>
    refine ⟨c, he a c ha, ?_⟩
    cases c <;> cases t <;> first | exact hc.elim | exact ⟨rfl, rfl⟩
  | arr _ a ps ts ha hs =>
    refine ⟨_, he a _ ha, ?_⟩
    show Predicts o _ K (match anyToInt q with | .ok pos => _ | .err e => _ | _ => _)
    unfold locate
    cases anyToInt q with
    | ok pos =>
      dsimp only
      have hl := hungL_length (soleL_hung hs)
      rw [hl]
      by_cases e1 : posForRead ts.length pos < 0
      · rw [if_pos e1, if_pos e1]; exact ⟨rfl, rfl⟩
      · rw [if_neg e1, if_neg e1]
        rcases hungL_at (posForRead ts.length pos).toNat (soleL_hung hs) with ⟨c, t, h1, h2, h3⟩ | ⟨h1, h2⟩
        · rw [h1, if_pos (List.getElem?_eq_some_iff.1 h2).1]
          refine ⟨rfl, c, t, rfl, ?_, focus_arr ha hs h1 h2⟩
          unfold V.at V.child
          dsimp only
          rw [h2]
          rfl
        · rw [h1, if_neg (by have := List.getElem?_eq_none_iff.1 h2; omega)]
          exact ⟨rfl, rfl⟩
    | err _ | panic | diverge => exact ⟨rfl, rfl⟩
  | obj _ a n es l ts ha hs =>
    refine ⟨_, he a _ ha, ?_⟩
    show Predicts o _ K (match anyToString q with | .ok key => _ | .err e => _ | _ => _)
    unfold locate
    cases anyToString q with
    | ok key =>
      dsimp only
      unfold aFind findKey
      rcases hungE_lookup key (soleE_hung hs) with ⟨e, t, h1, h2, h3⟩ | ⟨h1, h2⟩
      · rw [h1, h2]
        dsimp only [Option.isSome]
        rw [if_pos rfl]
        refine ⟨rfl, e.v, t.v, rfl, ?_, focus_obj ha hs h1 h2⟩
        simp [V.at, V.child, h2]
      · rw [h1, h2]
        exact ⟨rfl, rfl⟩
    | err _ | panic | diverge => exact ⟨rfl, rfl⟩

mutual
theorem reaching_get1 (E : Env) {o : Opt} {K : Known} : ∀ (q : Param) {L : Known} {p : Ptr} {t : V}, Sole L p t → Extends L K →
    Predicts o (Reaching L p t (resolve1 E false t q).2 K) K (aGet1 E false p q)
  | .slice qs, L, p, t, h, he => by
    unfold aGet1 resolve1
    by_cases e : qs.isEmpty = true
    · rw [if_pos e, if_pos e]; exact reaching_locate E .nil h he
    · rw [if_neg e, if_neg e]; exact reaching_get E qs h he
  | .nil, L, p, t, h, he => by unfold aGet1 resolve1; exact reaching_locate E _ h he
  | .str _, L, p, t, h, he => by unfold aGet1 resolve1; exact reaching_locate E _ h he
  | .int _, L, p, t, h, he => by unfold aGet1 resolve1; exact reaching_locate E _ h he
  | .uint _, L, p, t, h, he => by unfold aGet1 resolve1; exact reaching_locate E _ h he
  | .other, L, p, t, h, he => by unfold aGet1 resolve1; exact reaching_locate E _ h he
theorem reaching_get (E : Env) {o : Opt} {K : Known} : ∀ (ps : List Param) {L : Known} {p : Ptr} {t : V}, Sole L p t → Extends L K →
    Predicts o (Reaching L p t (resolve E false t ps).2 K) K (aGet E false p ps)
  | [], L, p, t, h, he => ⟨rfl, rfl⟩
  | [q], L, p, t, h, he => by rw [aGet, if_pos (by simp), resolve, if_pos (by simp)]; exact reaching_get1 E q h he
  | q :: r :: rs, L, p, t, h, he => by
    rw [aGet, if_neg (by simp), resolve, if_neg (by simp)]
    by_cases hq : q.isSlice
    · rw [if_pos hq, if_pos hq]; exact ⟨rfl, rfl⟩
    · rw [if_neg hq, if_neg hq]
      have ih := fun {L : Known} {p : Ptr} {t : V} (h : Sole L p t) (he : Extends L K) => reaching_get E (o := o) (r :: rs) h he
      refine predicts_andThen (fun K' x hx => ?_) (reaching_locate E (o := o) q h he)
      obtain ⟨rfl, hx⟩ := hx
      have hv := locate_plain E t q
      generalize locate E false t q = y at hx hv
      obtain ⟨t', y⟩ := y
      dsimp only at hv
      subst hv
      cases y with
      | ok s =>
        obtain ⟨c, u, rfl, hat, hf⟩ := hx
        have hc : t'.child s = some u := by
          unfold V.at at hat
          cases e : t'.child s with
          | none => rw [e] at hat; cases hat
          | some z => rw [e] at hat; exact hat
        dsimp only
        rw [hc]
        dsimp only
        obtain ⟨L1, L2, g1, g2, g3, g4, g5⟩ := hf
        refine predicts_mono (fun K2 x hy => ?_) (ih g1 (extends_trans g3 he))
        obtain ⟨rfl, hy⟩ := hy
        refine ⟨rfl, ?_⟩
        cases hz : (resolve E false u (r :: rs)).2 with
        | ok l =>
          rw [hz] at hy
          obtain ⟨q', w, rfl, h1, h2⟩ := hy
          refine ⟨q', w, rfl, ?_, focus_trans hc g2 g3 g4 g5 h2⟩
          unfold V.at
          rw [hc]
          exact h1
        | err _ | panic | diverge =>
          rw [hz] at hy
          exact hy
      | err e => cases hx; exact ⟨rfl, rfl⟩
      | panic => cases hx; exact ⟨rfl, rfl⟩
      | diverge => cases hx; exact ⟨rfl, rfl⟩
end

theorem reaching_array (E : Env) {o : Opt} {K : Known} (ps : List Param) {L : Known} {p : Ptr} {t : V} (h : Sole L p t) (he : Extends L K) :
    Predicts o (Reaching L p t (locArray E t ps) K) K (aGetArray E p ps) := by
  unfold aGetArray locArray
  refine predicts_andThen (fun K' r hq => ?_) (reaching_get E (o := o) ps h he)
  obtain ⟨rfl, hq⟩ := hq
  cases hx : (resolve E false t ps).2 with
  | ok l =>
    rw [hx] at hq
    obtain ⟨z, w, rfl, hat, hf⟩ := hq
    dsimp only
    rw [hat]
    obtain ⟨L1, L2, g1, g2, g3, g4, g5⟩ := id hf
    cases g1 with
    | nil => exact ⟨rfl, rfl⟩
    | leaf _ a d w ha hl =>
      refine ⟨d, he a d (g3 a d ha), ?_⟩
      cases d <;> cases w <;> first | exact hl.elim | exact ⟨rfl, rfl⟩
    | obj _ a n es l ts ha hs => exact ⟨_, he a _ (g3 a _ ha), rfl, rfl⟩
    | arr _ a ps ts ha hs => exact ⟨_, he a _ (g3 a _ ha), rfl, _, _, rfl, hat, hf⟩
  | err _ | panic | diverge =>
    rw [hx] at hq
    cases hq
    exact ⟨rfl, rfl⟩

/-- what is done to a part of the document is done to the document -/
theorem sole_focus {o : Opt} {K L M : Known} {p q : Ptr} {t u u' : V} {l : List Step} {act : Act Ptr} (hf : Focus L p t l q u) (hd : Disj L M) (hL : Extends L K)
    (hM : Extends M K) (h : ∀ L1, Extends L1 L → Sole L1 q u → Predicts o (fun K' _ => Sole K' q u') (both L1 M) act) :
    Predicts o (fun K' _ => Sole K' p (putAt t l u')) K act := by
  obtain ⟨L1, L2, g1, g2, g3, g4, g5⟩ := hf
  refine predicts_mono (fun K' r hq => ?_) (predicts_frame (h L1 g3 g1) (both_extends (extends_trans g3 hL) hM))
  obtain ⟨L', k1, k2, k3⟩ := hq
  have g : ∀ b, L2 b ≠ none → L' b = none ∧ K' b = L2 b := fun b hb => by
    have hK : K b = L2 b := extends_ne (extends_trans g4 hL) hb
    have := k3 b (both_none (disj_symm g2 b hb) (hd b (by rw [extends_ne g4 hb]; exact hb))) (by rw [hK]; exact hb)
    rw [hK] at this
    exact this
  exact g5 K' L' u' k1 (disj_symm fun b hb => (g b hb).1) k2 fun b y hb => by rw [(g b (by rw [hb]; simp)).2, hb]

theorem soleL_insert {c : Ptr} {u : V} : ∀ {K L M : Known} {ps : List Ptr} {ts : List V} (n : Nat), SoleL L ps ts → Sole M c u → Disj L M → Extends L K → Extends M K →
    SoleL K (ps.take n ++ c :: ps.drop n) (ts.take n ++ u :: ts.drop n)
  | K, L, M, _, _, 0, h, hc, hd, h1, h2 => .cons _ M L _ _ _ _ h2 h1 (disj_symm hd) hc h
  | K, L, M, _, _, n + 1, .nil _, hc, hd, h1, h2 => .cons _ M nothing _ _ _ _ h2 (fun a c h => by cases h) (fun a _ => rfl) hc (.nil _)
  | K, L, M, _, _, n + 1, .cons _ L1 L2 p ps t ts e1 e2 hd' h hs, hc, hd, h1, h2 =>
    .cons _ L1 (both L2 M) _ _ _ _ (extends_trans e1 h1) (both_extends (extends_trans e2 h1) h2) (disj_both hd' (disj_mono hd e1 (extends_refl M))) h
      (soleL_insert n hs hc (disj_mono hd e2 (extends_refl M)) both_left (both_right (disj_mono hd e2 (extends_refl M))))

theorem soleL_eraseIdx : ∀ {K : Known} {ps : List Ptr} {ts : List V} (n : Nat), SoleL K ps ts → SoleL K (ps.eraseIdx n) (ts.eraseIdx n)
  | K, _, _, n, .nil _ => by simpa using SoleL.nil K
  | K, _, _, 0, .cons _ L1 L2 p ps t ts e1 e2 hd' h hs => soleL_mono e2 hs
  | K, _, _, n + 1, .cons _ L1 L2 p ps t ts e1 e2 hd' h hs => .cons _ L1 L2 _ _ _ _ e1 e2 hd' h (soleL_eraseIdx n hs)

theorem soleE_erase {k : Bytes} : ∀ {K : Known} {es : List HEnt} {ts : List Ent}, SoleE K es ts → SoleE K (herase k es) (erase k ts)
  | K, _, _, .nil _ => .nil _
  | K, _, _, .cons _ L1 L2 k' i p es t ts e1 e2 hd' h hs => by
    unfold herase erase
    by_cases e : k' = k
    · rw [if_pos e, Ent.key_mk, if_pos e]; exact soleE_mono e2 hs
    · rw [if_neg e, Ent.key_mk, if_neg e]; exact .cons _ L1 L2 _ _ _ _ _ _ e1 e2 hd' h (soleE_erase hs)

theorem insertToArr_beyond {β : Type} [HasNil β] (xs : List β) (n : Nat) (c : β) (h : ¬ n ≤ xs.length) : insertToArr xs n c = .panic := by
  unfold insertToArr
  dsimp only
  rw [if_neg (by simp; omega)]

theorem deleteInArr_beyond {β : Type} [HasNil β] (xs : List β) (n : Nat) (h : ¬ n < xs.length) : deleteInArr xs n = .panic := by
  unfold deleteInArr
  rw [if_neg h]

theorem sole_insertLast {o : Opt} {K L M : Known} {p c : Ptr} {t u : V} (after : Bool) (q : Param) (ht : Sole L p t) (hc : Sole M c u) (hd : Disj L M)
    (h1 : Extends L K) (h2 : Extends M K) : Predicts o (fun K' _ => Sole K' p (insertLast after t u q).1) K (aInsertLast after p c q) := by
  have hk := sole_mono h1 ht
  have hold : ∀ {r : R Ptr}, Predicts o (fun K' _ => Sole K' p t) K (.ret r) := fun {r} => hk
  cases ht with
  | nil => cases after <;> exact hk
  | leaf _ a d t ha hl =>
    refine ⟨d, h1 a d ha, ?_⟩
    cases d <;> cases t <;> first | exact hl.elim | exact hk
  | obj _ a n es l ts ha h => exact ⟨_, h1 a _ ha, hk⟩
  | arr _ a ps ts ha h =>
    have hm : M a = none := hd a (by rw [ha]; simp)
    have e1 : Extends (without L a) (without K a) := without_mono a h1
    have e2 : Extends M (without K a) := without_of h2 hm
    have e3 : Disj (without L a) M := disj_mono hd (without_extends L a) (extends_refl M)
    refine ⟨_, h1 a _ ha, ?_⟩
    dsimp only [Cell.plain]
    unfold insertLast
    cases anyToInt q with
    | ok pos =>
      dsimp only
      have hlen := hungL_length (soleL_hung h)
      rw [hlen]
      generalize (if after = true then posForInsertAfter ts.length pos else (posForInsertBefore ts.length pos, false)) = z
      by_cases i1 : z.1 < 0
      · rw [if_pos i1, if_pos i1]; exact hk
      · rw [if_neg i1, if_neg i1]
        by_cases i2 : z.2 = true
        · rw [if_pos i2, if_pos i2]
          exact ⟨_, h1 a _ ha, .arr _ a _ _ upd_self (by rw [without_upd]; exact soleL_snoc h hc e3 e1 e2)⟩
        · rw [if_neg i2, if_neg i2]
          by_cases i3 : z.1.toNat ≤ ts.length
          · rw [insertToArr_eq _ _ _ i3, insertToArr_eq _ _ _ (by rw [hlen]; exact i3)]
            exact ⟨_, h1 a _ ha, .arr _ a _ _ upd_self (by rw [without_upd]; exact soleL_insert _ h hc e3 e1 e2)⟩
          · rw [insertToArr_beyond _ _ _ i3, insertToArr_beyond _ _ _ (by rw [hlen]; exact i3)]
            exact hk
    | err _ | panic | diverge => exact hk

theorem sole_deleteLast (E : Env) {o : Opt} {K L : Known} {p : Ptr} {t : V} (q : Param) (ht : Sole L p t) (h1 : Extends L K) :
    Predicts o (fun K' _ => Sole K' p (deleteLast E false t q).1) K (aDeleteLast E false p q) := by
  have hk := sole_mono h1 ht
  cases ht with
  | nil => exact hk
  | leaf _ a d t ha hl =>
    refine ⟨d, h1 a d ha, ?_⟩
    cases d <;> cases t <;> first | exact hl.elim | exact hk
  | arr _ a ps ts ha h =>
    refine ⟨_, h1 a _ ha, ?_⟩
    dsimp only [Cell.plain]
    unfold deleteLast
    cases anyToInt q with
    | ok pos =>
      dsimp only
      have hlen := hungL_length (soleL_hung h)
      rw [hlen]
      by_cases i1 : posForRead ts.length pos < 0
      · rw [if_pos i1, if_pos i1]; exact hk
      · rw [if_neg i1, if_neg i1]
        by_cases i3 : (posForRead ts.length pos).toNat < ts.length
        · rw [deleteInArr_eq _ _ i3, deleteInArr_eq _ _ (by rw [hlen]; exact i3)]
          exact ⟨_, h1 a _ ha, .arr _ a _ _ upd_self (by rw [without_upd]; exact soleL_mono (without_mono a h1) (soleL_eraseIdx _ h))⟩
        · rw [deleteInArr_beyond _ _ i3, deleteInArr_beyond _ _ (by rw [hlen]; exact i3)]
          exact hk
    | err _ | panic | diverge => exact hk
  | obj _ a n es l ts ha h =>
    refine ⟨_, h1 a _ ha, ?_⟩
    dsimp only [Cell.plain]
    unfold deleteLast
    cases anyToString q with
    | ok k =>
      dsimp only
      unfold aDelKey delKey findKey
      rcases hungE_lookup k (soleE_hung h) with ⟨e, t, g1, g2, -⟩ | ⟨g1, g2⟩
      · rw [g1, g2]
        dsimp only [Option.isSome]
        rw [if_pos rfl]
        dsimp only
        refine ⟨_, h1 a _ ha, _, upd_self, ?_⟩
        have hu := soleE_mono (without_mono a h1) (soleE_erase (k := k) h)
        cases l with
        | none => exact .obj _ a _ _ _ _ upd_self (by rw [without_upd]; exact hu)
        | some m => exact ⟨_, upd_self, .obj _ a _ _ _ _ upd_self (by rw [without_upd, without_upd]; exact hu)⟩
      · rw [g1, g2]
        exact hk
    | err _ | panic | diverge => exact hk

mutual
theorem sole_delete1 (E : Env) {o : Opt} : ∀ (q : Param) {K L : Known} {p : Ptr} {t : V}, Sole L p t → Extends L K →
    Predicts o (fun K' _ => Sole K' p (deleteAt1 E false t q).1) K (aDeleteAt1 E false p q)
  | .slice qs, K, L, p, t, h, he => by
    unfold aDeleteAt1 deleteAt1
    by_cases e : qs.isEmpty = true
    · rw [if_pos e, if_pos e]; exact sole_deleteLast E .nil h he
    · rw [if_neg e, if_neg e]; exact sole_delete E qs [] h he
  | .nil, K, L, p, t, h, he => by unfold aDeleteAt1 deleteAt1; exact sole_deleteLast E _ h he
  | .str _, K, L, p, t, h, he => by unfold aDeleteAt1 deleteAt1; exact sole_deleteLast E _ h he
  | .int _, K, L, p, t, h, he => by unfold aDeleteAt1 deleteAt1; exact sole_deleteLast E _ h he
  | .uint _, K, L, p, t, h, he => by unfold aDeleteAt1 deleteAt1; exact sole_deleteLast E _ h he
  | .other, K, L, p, t, h, he => by unfold aDeleteAt1 deleteAt1; exact sole_deleteLast E _ h he
theorem sole_delete (E : Env) {o : Opt} : ∀ (ps pre : List Param) {K L : Known} {p : Ptr} {t : V}, Sole L p t → Extends L K →
    Predicts o (fun K' _ => Sole K' p (deleteAt E false t pre ps).1) K (aDeleteAt E false p pre ps)
  | [], pre, K, L, p, t, h, he => by unfold aDeleteAt deleteAt; exact sole_mono he h
  | q :: rest, pre, K, L, p, t, h, he => by
    have ih1 := fun {K L : Known} {p : Ptr} {t : V} (h : Sole L p t) (he : Extends L K) => sole_delete1 E (o := o) q h he
    have ih2 := sole_delete E (o := o) rest (pre ++ [q]) h he
    unfold aDeleteAt deleteAt
    by_cases e : (!rest.isEmpty) = true
    · rw [if_pos e, if_pos e]; exact ih2
    · rw [if_neg e, if_neg e]
      cases pre with
      | nil => exact ih1 h he
      | cons f fs =>
        dsimp only
        by_cases e : f.isSlice = true
        · rw [if_pos e, if_pos e]; exact sole_mono he h
        · rw [if_neg e, if_neg e]
          refine predicts_andThen (fun K' r hq => ?_) (reaching_get E (o := o) (f :: fs) h he)
          obtain ⟨rfl, hq⟩ := hq
          rw [show resolve E false t (f :: fs) = (t, (resolve E false t (f :: fs)).2) from Prod.ext (resolve_plain E (f :: fs) t) rfl]
          cases hx : (resolve E false t (f :: fs)).2 with
          | ok l =>
            rw [hx] at hq
            obtain ⟨c, u, rfl, hat, hf⟩ := hq
            dsimp only
            rw [modify_at _ hat]
            exact sole_focus (M := nothing) hf (fun _ _ => rfl) he (fun a c h => by cases h) fun L1 _ hs => ih1 hs both_left
          | err _ | panic | diverge =>
            rw [hx] at hq
            cases hq
            exact sole_mono he h
end

mutual
theorem sole_insert1 (E : Env) (after : Bool) {o : Opt} : ∀ (q : Param) {K L M : Known} {p c : Ptr} {t u : V}, Sole L p t → Sole M c u → Disj L M → Extends L K →
    Extends M K → Predicts o (fun K' _ => Sole K' p (insertAt1 E after t u q).1) K (aInsertAt1 E after p c q)
  | .slice qs, K, L, M, p, c, t, u, h, hc, hd, he, hm => by
    unfold aInsertAt1 insertAt1
    by_cases e : qs.isEmpty = true
    · rw [if_pos e, if_pos e]; exact sole_insertLast after .nil h hc hd he hm
    · rw [if_neg e, if_neg e]; exact sole_insert E after qs [] h hc hd he hm
  | .nil, K, L, M, p, c, t, u, h, hc, hd, he, hm => by unfold aInsertAt1 insertAt1; exact sole_insertLast after _ h hc hd he hm
  | .str _, K, L, M, p, c, t, u, h, hc, hd, he, hm => by unfold aInsertAt1 insertAt1; exact sole_insertLast after _ h hc hd he hm
  | .int _, K, L, M, p, c, t, u, h, hc, hd, he, hm => by unfold aInsertAt1 insertAt1; exact sole_insertLast after _ h hc hd he hm
  | .uint _, K, L, M, p, c, t, u, h, hc, hd, he, hm => by unfold aInsertAt1 insertAt1; exact sole_insertLast after _ h hc hd he hm
  | .other, K, L, M, p, c, t, u, h, hc, hd, he, hm => by unfold aInsertAt1 insertAt1; exact sole_insertLast after _ h hc hd he hm
theorem sole_insert (E : Env) (after : Bool) {o : Opt} : ∀ (ps pre : List Param) {K L M : Known} {p c : Ptr} {t u : V}, Sole L p t → Sole M c u → Disj L M →
    Extends L K → Extends M K → Predicts o (fun K' _ => Sole K' p (insertAt E after t u pre ps).1) K (aInsertAt E after p c pre ps)
  | [], pre, K, L, M, p, c, t, u, h, hc, hd, he, hm => by unfold aInsertAt insertAt; exact sole_mono he h
  | q :: rest, pre, K, L, M, p, c, t, u, h, hc, hd, he, hm => by
    have ih1 := fun {K L M : Known} {p c : Ptr} {t u : V} (h : Sole L p t) (hc : Sole M c u) (hd : Disj L M) (he : Extends L K) (hm : Extends M K) =>
      sole_insert1 E after (o := o) q h hc hd he hm
    have ih2 := sole_insert E after (o := o) rest (pre ++ [q]) h hc hd he hm
    have hk := sole_mono he h
    unfold aInsertAt insertAt
    by_cases e : (!rest.isEmpty) = true
    · rw [if_pos e, if_pos e]; exact ih2
    · rw [if_neg e, if_neg e]
      cases pre with
      | nil => exact ih1 h hc hd he hm
      | cons f fs =>
        dsimp only
        by_cases e : f.isSlice = true
        · rw [if_pos e, if_pos e]; exact hk
        · rw [if_neg e, if_neg e]
          have hmain : Predicts o (fun K' _ => Sole K' p (match locArray E t (f :: fs) with
              | .ok l => prefixLoc l (t.modify (fun a => insertAt1 E after a u q) l)
              | .err e => (t, .err e)
              | .panic => (t, .panic)
              | .diverge => (t, .diverge)).1) K ((aGetArray E p (f :: fs)).onOk fun z => aInsertAt1 E after z c q) := by
            refine predicts_andThen (fun K' r hq => ?_) (reaching_array E (o := o) (f :: fs) h he)
            obtain ⟨rfl, hq⟩ := hq
            cases hx : locArray E t (f :: fs) with
            | ok l =>
              rw [hx] at hq
              obtain ⟨z, w, rfl, hat, hf⟩ := hq
              dsimp only [prefixLoc]
              rw [modify_at _ hat]
              exact sole_focus hf hd he hm fun L' hL hs' => ih1 hs' hc (disj_mono hd hL (extends_refl _)) both_left (both_right (disj_mono hd hL (extends_refl _)))
            | err _ | panic | diverge =>
              rw [hx] at hq
              cases hq
              exact hk
          cases p with
          | none => cases h; cases after <;> exact hk
          | some a =>
            dsimp only
            refine predicts_uninit (sole_hung hk) ?_
            cases t <;> first | exact hmain | exact hk | (cases after <;> exact hk)
end

theorem noIndex_put {t u : V} {s : Step} (ht : noIndex t = t) (hu : noIndex u = u) : noIndex (t.put s u) = t.put s u := by
  cases t <;> cases s <;> first | exact ht | skip
  · simp only [V.put, noIndex]
    rw [noIndexL_set hu _ (by simpa [noIndex] using ht)]
  · simp only [noIndex, V.obj.injEq, true_and] at ht
    simp only [V.put, noIndex]
    rw [noIndexM_put hu ht.1, ht.2]

theorem noIndex_modify {β : Type} (f : V → V × R β) (hf : ∀ u, noIndex u = u → noIndex (f u).1 = (f u).1) : ∀ (l : List Step) {t : V}, noIndex t = t →
    noIndex (t.modify f l).1 = (t.modify f l).1
  | [], t, ht => hf t ht
  | s :: l, t, ht => by
    unfold V.modify
    split
    · next c hc => exact noIndex_put ht (noIndex_modify f hf l ((child_part hc).1 ht))
    · exact ht

theorem noIndex_insertLast (E : Env) {t u : V} (after : Bool) (q : Param) (hq : q.isSlice = false) (ht : noIndex t = t) (hu : noIndex u = u) :
    noIndex (insertLast after t u q).1 = (insertLast after t u q).1 := by
  have := noIndex_result E (t := t) (.insert after u q) ⟨hq, hu⟩ ht
  have e2 : (Alter.insert after u q).result E t = (insertLast after t u q).1 := by
    show (insertAt E after t u [] [q]).1 = _
    rw [insertAt]
    cases q <;> first | rfl | cases hq
  rw [e2] at this
  exact this

theorem noIndex_deleteLast (E : Env) {t : V} (q : Param) (hq : q.isSlice = false) (ht : noIndex t = t) : noIndex (deleteLast E false t q).1 = (deleteLast E false t q).1 := by
  have := noIndex_result E (t := t) (.delete q) hq ht
  have e2 : (Alter.delete q).result E t = (deleteLast E false t q).1 := by
    show (deleteAt E false t [] [q]).1 = _
    rw [deleteAt]
    cases q <;> first | rfl | cases hq
  rw [e2] at this
  exact this

mutual
theorem noIndex_delete1 (E : Env) : ∀ (q : Param) {t : V}, noIndex t = t → noIndex (deleteAt1 E false t q).1 = (deleteAt1 E false t q).1
  | .slice qs, t, ht => by
    unfold deleteAt1
    by_cases e : qs.isEmpty = true
    · rw [if_pos e]; exact noIndex_deleteLast E .nil rfl ht
    · rw [if_neg e]; exact noIndex_delete E qs [] ht
  | .nil, t, ht => by unfold deleteAt1; exact noIndex_deleteLast E _ rfl ht
  | .str _, t, ht => by unfold deleteAt1; exact noIndex_deleteLast E _ rfl ht
  | .int _, t, ht => by unfold deleteAt1; exact noIndex_deleteLast E _ rfl ht
  | .uint _, t, ht => by unfold deleteAt1; exact noIndex_deleteLast E _ rfl ht
  | .other, t, ht => by unfold deleteAt1; exact noIndex_deleteLast E _ rfl ht
theorem noIndex_delete (E : Env) : ∀ (ps pre : List Param) {t : V}, noIndex t = t → noIndex (deleteAt E false t pre ps).1 = (deleteAt E false t pre ps).1
  | [], pre, t, ht => by unfold deleteAt; exact ht
  | q :: rest, pre, t, ht => by
    have ih1 := fun {t : V} (h : noIndex t = t) => noIndex_delete1 E q h
    have ih2 := noIndex_delete E rest (pre ++ [q]) ht
    unfold deleteAt
    split
    · exact ih2
    · cases pre with
      | nil => exact ih1 ht
      | cons f fs =>
        dsimp only
        split
        · exact ht
        · rw [show resolve E false t (f :: fs) = (t, (resolve E false t (f :: fs)).2) from Prod.ext (resolve_plain E (f :: fs) t) rfl]
          cases hx : (resolve E false t (f :: fs)).2 with
          | ok l =>
            dsimp only
            exact noIndex_modify _ (fun u hu => ih1 hu) l ht
          | err _ | panic | diverge => exact ht
end

mutual
theorem noIndex_insert1 (E : Env) (after : Bool) {u : V} (hu : noIndex u = u) : ∀ (q : Param) {t : V}, noIndex t = t →
    noIndex (insertAt1 E after t u q).1 = (insertAt1 E after t u q).1
  | .slice qs, t, ht => by
    unfold insertAt1
    by_cases e : qs.isEmpty = true
    · rw [if_pos e]; exact noIndex_insertLast E after .nil rfl ht hu
    · rw [if_neg e]; exact noIndex_insert E after hu qs [] ht
  | .nil, t, ht => by unfold insertAt1; exact noIndex_insertLast E after _ rfl ht hu
  | .str _, t, ht => by unfold insertAt1; exact noIndex_insertLast E after _ rfl ht hu
  | .int _, t, ht => by unfold insertAt1; exact noIndex_insertLast E after _ rfl ht hu
  | .uint _, t, ht => by unfold insertAt1; exact noIndex_insertLast E after _ rfl ht hu
  | .other, t, ht => by unfold insertAt1; exact noIndex_insertLast E after _ rfl ht hu
theorem noIndex_insert (E : Env) (after : Bool) {u : V} (hu : noIndex u = u) : ∀ (ps pre : List Param) {t : V}, noIndex t = t →
    noIndex (insertAt E after t u pre ps).1 = (insertAt E after t u pre ps).1
  | [], pre, t, ht => by unfold insertAt; exact ht
  | q :: rest, pre, t, ht => by
    have ih1 := fun {t : V} (h : noIndex t = t) => noIndex_insert1 E after hu q h
    have ih2 := noIndex_insert E after hu rest (pre ++ [q]) ht
    unfold insertAt
    split
    · exact ih2
    · cases pre with
      | nil => exact ih1 ht
      | cons f fs =>
        dsimp only
        split
        · exact ht
        · split
          · split <;> exact ht
          · exact ht
          · cases hx : locArray E t (f :: fs) with
            | ok l =>
              dsimp only [prefixLoc]
              exact noIndex_modify _ (fun u hu => ih1 hu) l ht
            | err _ | panic | diverge => exact ht
end

end JV
