import Verif.Proofs.ThreadsFocus
/-! Where Set puts its value, and Append with any path, on documents whose objects are in one place each. -/
namespace JV
open Spec

theorem focus_here {M : Known} {c : Ptr} {u : V} (h : Sole M c u) : Focus M c u [] c u :=
  ⟨M, nothing, h, (fun _ _ => rfl), extends_refl M, (fun a c h => by cases h), fun _ _ _ h _ hk _ => sole_mono hk h⟩

theorem without_none {L K : Known} {a : Nat} (h : Extends L (without K a)) : L a = none := by
  cases e : L a with
  | none => rfl
  | some y => have := h a y e; rw [without_self] at this; cases this

/-- the rest, into which another document fits -/
theorem focus_into {K L' L2 : Known} {a : Nat} {d : Cell} {t t' u : V} {s : Step} {q c : Ptr} {l : List Step} (ha : K a = some d) (h1 : Extends L' (without K a))
    (h2 : Extends L2 (without K a)) (hd : Disj L' L2) (hc : t.child s = some t')
    (hb : ∀ K L' t'', K a = some d → Sole L' q t'' → Disj L' L2 → Extends L' (without K a) → Extends L2 (without K a) → Sole K (some a) (t.put s t''))
    (hf : Focus L' q t' l c u) : Focus K (some a) t (s :: l) c u := by
  have hy := sole_beyond ha h2
  refine focus_trans hc (L2 := upd L2 a d) (disj_beyond h1 hd) (extends_trans h1 (without_extends K a)) hy.1 (fun K2 M u' k1 k2 k3 k4 => ?_) hf
  have e : putAt t [s] u' = t.put s u' := by unfold putAt; rw [hc]; rfl
  rw [e]
  exact hb K2 M u' (k4 a d upd_self) k1 (disj_mono k2 (extends_refl _) hy.2) (without_of k3 (disj_symm k2 a (by rw [upd_self]; simp)))
    (without_of (extends_trans hy.2 k4) (without_none h2))

theorem lookup_assigned {k : Bytes} {i : BitVec 32} {u : V} : ∀ (ts : List Ent), lookup k (assign ⟨k, i, u⟩ ts) = some ⟨k, i, u⟩
  | [] => by simp [assign, lookup, Ent.key_mk]
  | .mk k' j v :: ts => by
    unfold assign
    by_cases e : k' = k
    · rw [if_pos (by exact e)]; simp [lookup, Ent.key_mk]
    · rw [if_neg (by exact e)]; unfold lookup; rw [Ent.key_mk, if_neg e]; exact lookup_assigned ts

theorem putKey_assigned {k : Bytes} {i : BitVec 32} {u w : V} : ∀ (ts : List Ent), putKey k w (assign ⟨k, i, u⟩ ts) = assign ⟨k, i, w⟩ ts
  | [] => by simp [assign, putKey, Ent.key_mk]
  | .mk k' j v :: ts => by
    unfold assign
    by_cases e : k' = k
    · rw [if_pos (by exact e), if_pos (by exact e)]; simp [putKey, Ent.key_mk]
    · rw [if_neg (by exact e), if_neg (by exact e)]; unfold putKey; rw [Ent.key_mk, if_neg e, putKey_assigned ts]

theorem lookup_putted {k : Bytes} {u : V} {e : Ent} : ∀ {ts : List Ent}, lookup k ts = some e → (lookup k (putKey k u ts)).map Ent.v = some u
  | .mk k' j v :: ts, h => by
    unfold lookup at h
    unfold putKey
    by_cases e : k' = k
    · rw [Ent.key_mk, if_pos e]; simp [lookup, Ent.key_mk, e]
    · rw [Ent.key_mk, if_neg e] at h
      rw [Ent.key_mk, if_neg e]
      unfold lookup
      rw [Ent.key_mk, if_neg e]
      exact lookup_putted h

theorem putKey_putted {k : Bytes} {u w : V} : ∀ (ts : List Ent), putKey k w (putKey k u ts) = putKey k w ts
  | [] => rfl
  | .mk k' j v :: ts => by
    by_cases e : k' = k
    · simp [putKey, Ent.key_mk, e]
    · simp [putKey, Ent.key_mk, e, putKey_putted ts]

/-- the document after Set, and where the value is in it -/
def Placed (v c : Ptr) (u : V) (x : V × R (List Step)) : Known → R Ptr → Prop := fun K r => Sole K v x.1 ∧ match x.2 with
  | .ok l => r = .ok c ∧ x.1.at l = some u ∧ Focus K v x.1 l c u
  | .err e => r = .err e
  | .panic => r = .panic
  | .diverge => r = .diverge

theorem at_child {t u : V} {s : Step} {w : V} {l : List Step} (h : t.child s = some w) (hl : w.at l = some u) : t.at (s :: l) = some u := by
  unfold V.at
  rw [h]
  exact hl

theorem placed_key (E : Env) {o : Opt} {K L M : Known} {a : Nat} {n : BitVec 32} {es : List HEnt} {l : Low} {ts : List Ent} {q c : Ptr} {t' u : V} {m : List Step}
    (k : Bytes) (ha : K a = some (.obj n es l)) (h : SoleE L es ts) (hc : Sole M q t') (hd : Disj L M) (h1 : Extends L (without K a)) (h2 : Extends M (without K a))
    (hf : Focus M q t' m c u) : Predicts o (fun K' r => r = .ok q ∧ Sole K' (some a) (setKey E n ts l k t') ∧ Focus K' (some a) (setKey E n ts l k t') (.key k :: m) c u)
      K (aSetKey E a n es k q) := by
  unfold aSetKey
  refine ⟨_, ha, _, upd_self, ?_⟩
  dsimp only [Cell.withIndex, Cell.index]
  have main : ∀ (K' : Known), K' a = some (.obj (n + 1) (hassign ⟨k, n + 1, q⟩ es) (addCaseless E l k)) → without K' a = without K a →
      Sole K' (some a) (setKey E n ts l k t') ∧ Focus K' (some a) (setKey E n ts l k t') (.key k :: m) c u := by
    intro K' hK hw
    rw [← hw] at h1 h2
    refine ⟨.obj _ a _ _ _ _ hK (soleE_assign h hc hd h1 h2), focus_into hK h2 h1 (disj_symm hd) ?_ (fun K2 L' w e1 e2 e3 e4 e5 => ?_) hf⟩
    · simp only [setKey, V.child, lookup_assigned]; rfl
    · simp only [setKey, V.put, putKey_assigned]
      exact .obj _ a _ _ _ _ e1 (soleE_assign h e2 (disj_symm e3) e5 e4)
  cases l with
  | none => exact ⟨rfl, main _ upd_self (by rw [without_upd])⟩
  | some m => exact ⟨_, upd_self, rfl, main _ upd_self (by rw [without_upd, without_upd])⟩

theorem placed_push {K L M : Known} {a : Nat} {ps : List Ptr} {ts : List V} {q c : Ptr} {t' u : V} {m : List Step}
    (ha : K a = some (.arr (ps ++ [q]))) (h : SoleL L ps ts) (hc : Sole M q t') (hd : Disj L M) (h1 : Extends L (without K a)) (h2 : Extends M (without K a))
    (hf : Focus M q t' m c u) : Sole K (some a) (.arr (ts ++ [t'])) ∧ Focus K (some a) (.arr (ts ++ [t'])) (.idx ts.length :: m) c u := by
  refine ⟨.arr _ a _ _ ha (soleL_snoc h hc hd h1 h2), focus_into ha h2 h1 (disj_symm hd) (by simp [V.child]) (fun K2 L' w e1 e2 e3 e4 e5 => ?_) hf⟩
  have : (V.arr (ts ++ [t'])).put (.idx ts.length) w = .arr (ts ++ [w]) := by simp [V.put]
  rw [this]
  exact .arr _ a _ _ e1 (soleL_snoc h e2 (disj_symm e3) e5 e4)

theorem placed_set {K L M : Known} {a : Nat} {ps : List Ptr} {ts : List V} {q c : Ptr} {t' u : V} {m : List Step} (n : Nat) (hn : n < ts.length)
    (ha : K a = some (.arr (ps.set n q))) (h : SoleL L ps ts) (hc : Sole M q t') (hd : Disj L M) (h1 : Extends L (without K a)) (h2 : Extends M (without K a))
    (hf : Focus M q t' m c u) : Sole K (some a) (.arr (ts.set n t')) ∧ Focus K (some a) (.arr (ts.set n t')) (.idx n :: m) c u := by
  refine ⟨.arr _ a _ _ ha (soleL_set n h hc hd h1 h2), focus_into ha h2 h1 (disj_symm hd) (by simp [V.child, hn]) (fun K2 L' w e1 e2 e3 e4 e5 => ?_) hf⟩
  have : (V.arr (ts.set n t')).put (.idx n) w = .arr (ts.set n w) := by simp [V.put]
  rw [this]
  exact .arr _ a _ _ e1 (soleL_set n h e2 (disj_symm e3) e5 e4)

theorem placed_last (E : Env) {o : Opt} {K L M : Known} {v c : Ptr} {t u : V} (q : Param) (ht : Sole L v t) (hc : Sole M c u) (hd : Disj L M) (h1 : Extends L K)
    (h2 : Extends M K) (hu : t.uninit = false) : Predicts o (Placed v c u (atLastParam E t u q)) K (aSetLast E v c q) := by
  cases ht with
  | nil => cases hu
  | leaf _ a d t ha hl =>
    refine ⟨d, h1 a d ha, ?_⟩
    have hk : Sole K (some a) t := .leaf K a d t (h1 a d ha) hl
    cases d <;> cases t <;> first | exact hl.elim | exact ⟨hk, rfl⟩
  | arr _ a ps ts ha h =>
    have hk : Sole K (some a) (.arr ts) := sole_mono h1 (.arr L a ps ts ha h)
    have hm : M a = none := hd a (by rw [ha]; simp)
    have e1 : Extends (without L a) (without K a) := without_mono a h1
    have e2 : Extends M (without K a) := without_of h2 hm
    have e3 : Disj (without L a) M := disj_mono hd (without_extends L a) (extends_refl M)
    refine ⟨_, h1 a _ ha, ?_⟩
    dsimp only [Cell.plain]
    unfold atLastParam
    cases hp : anyToInt q with
    | ok pos =>
      dsimp only
      unfold setAtIndex
      rw [hungL_length (soleL_hung h)]
      by_cases i1 : pos = ts.length
      · rw [if_pos i1, if_pos i1]
        have := placed_push (K := upd K a (.arr (ps ++ [c]))) (a := a) upd_self h hc e3 (by rw [without_upd]; exact e1) (by rw [without_upd]; exact e2) (focus_here hc)
        exact ⟨_, h1 a _ ha, this.1, rfl, by simp [V.at, V.child], this.2⟩
      · rw [if_neg i1, if_neg i1]
        dsimp only
        by_cases i2 : posForRead ts.length pos < 0
        · rw [if_pos i2, if_pos i2]
          exact ⟨hk, rfl⟩
        · rw [if_neg i2, if_neg i2]
          by_cases i3 : (posForRead ts.length pos).toNat < ts.length
          · rw [if_pos i3, if_pos i3]
            have := placed_set (K := upd K a (.arr (ps.set (posForRead ts.length pos).toNat c))) (a := a) _ i3 upd_self h hc e3 (by rw [without_upd]; exact e1)
              (by rw [without_upd]; exact e2) (focus_here hc)
            exact ⟨_, h1 a _ ha, this.1, rfl, by simp [V.at, V.child, i3], this.2⟩
          · rw [if_neg i3, if_neg i3]
            exact ⟨hk, rfl⟩
    | err _ | panic | diverge => exact ⟨hk, rfl⟩
  | obj _ a n es l ts ha h =>
    have hk : Sole K (some a) (.obj n ts l) := sole_mono h1 (.obj L a n es l ts ha h)
    have hm : M a = none := hd a (by rw [ha]; simp)
    refine ⟨_, h1 a _ ha, ?_⟩
    dsimp only [Cell.plain]
    unfold atLastParam
    cases hp : anyToString q with
    | ok k =>
      exact predicts_mono (fun K' r h => ⟨h.2.1, h.1, at_child (w := u) (by simp only [setKey, V.child, lookup_assigned]; rfl) rfl, h.2.2⟩)
        (placed_key E k (h1 a _ ha) h hc (disj_mono hd (without_extends L a) (extends_refl M)) (without_mono a h1) (without_of h2 hm) (focus_here hc))
    | err _ | panic | diverge => exact ⟨hk, rfl⟩

theorem placed_whole (E : Env) {o : Opt} {K L M : Known} {v c : Ptr} {t u : V} (q : Param) (ht : Sole L v t) (hc : Sole M c u) (hd : Disj L M) (h1 : Extends L K)
    (h2 : Extends M K) : Predicts o (Placed v c u (if t.uninit || u.uninit then (t, .err .valueUninitialized) else atLastParam E t u q)) K
      (aEither v c fun b => if b then .ret (.err .valueUninitialized) else aSetLast E v c q) :=
  sole_either (sole_hung (sole_mono h1 ht)) (hung_mono h2 (sole_hung hc)) (fun e => by rw [if_pos e]; exact ⟨sole_mono h1 ht, rfl⟩)
    fun i1 i2 => by rw [if_neg (by rw [i1, i2]; simp)]; exact placed_last E q ht hc hd h1 h2 i1

theorem frame_inside {o : Opt} {K L L1 L2 M : Known} {a : Nat} {d : Cell} {Q : Known → R Ptr → Prop} {p : Act Ptr}
    (ha : L a = some d) (hd : Disj L M) (hL : Extends L K) (hM : Extends M K) (h12 : Disj L1 L2) (e1 : Extends L1 (without L a)) (e2 : Extends L2 (without L a))
    (hp : Predicts o Q (both L1 M) p) :
    Predicts o (fun K' r => K' a = some d ∧ ∃ L', Q L' r ∧ Disj L' L2 ∧ Extends L' (without K' a) ∧ Extends L2 (without K' a)) K p := by
  have hm : M a = none := hd a (by rw [ha]; simp)
  have f1 : Extends L1 K := extends_trans (extends_trans e1 (without_extends L a)) hL
  have f2 : Extends L2 L := extends_trans e2 (without_extends L a)
  refine predicts_mono (fun K' r h => ?_) (predicts_frame hp (both_extends f1 hM))
  obtain ⟨L', hs, hx, hfr⟩ := h
  obtain ⟨ga, gb⟩ := hfr a (both_none (without_none e1) hm) (by rw [hL a d ha]; simp)
  have g2 : ∀ b, L2 b ≠ none → L' b = none ∧ K' b = L2 b := fun b hb => by
    have hK : K b = L2 b := extends_ne (extends_trans f2 hL) hb
    have := hfr b (both_none (disj_symm h12 b hb) (hd b (by rw [extends_ne f2 hb]; exact hb))) (by rw [hK]; exact hb)
    rw [hK] at this
    exact this
  exact ⟨gb.trans (hL a d ha), L', hs, disj_symm fun b hb => (g2 b hb).1, without_of hx ga,
    without_of (fun b y hb => by rw [(g2 b (by rw [hb]; simp)).2, hb]) (without_none e2)⟩

theorem frame_outside {o : Opt} {K L M : Known} {b : Nat} {d : Cell} {Q : Known → R Ptr → Prop} {p : Act Ptr}
    (hb : K b = none) (hd : Disj L M) (hL : Extends L K) (hM : Extends M K)
    (hp : Predicts o Q (both (upd nothing b d) M) p) :
    Predicts o (fun K' r => Extends L K' ∧ ∃ L', Q L' r ∧ Disj L L' ∧ Extends L' K') (upd K b d) p := by
  have hext : Extends (both (upd nothing b d) M) (upd K b d) := both_extends
    (fun x y h => by
      unfold upd at h ⊢
      split
      · next e => rw [if_pos e] at h; exact h
      · next e => rw [if_neg e] at h; cases h)
    (extends_trans hM (extends_upd d hb))
  refine predicts_mono (fun K' r h => ?_) (predicts_frame hp hext)
  obtain ⟨L', hs, hx, hfr⟩ := h
  have g : ∀ z, L z ≠ none → L' z = none ∧ K' z = L z := fun z hz => by
    have hK : K z = L z := extends_ne hL hz
    have hne : z ≠ b := fun e => by rw [e, hb] at hK; rw [← e] at hK; exact hz hK.symm
    have hu : upd K b d z = L z := by unfold upd; rw [if_neg hne]; exact hK
    have := hfr z (both_none (by unfold upd; rw [if_neg hne]; rfl) (hd z hz)) (by rw [hu]; exact hz)
    rw [hu] at this
    exact this
  exact ⟨(fun z y hz => by rw [(g z (by rw [hz]; simp)).2, hz]), L', hs, (fun z hz => (g z hz).1), hx⟩

mutual
theorem placed_at1 (E : Env) {o : Opt} : ∀ (q : Param) {K L M : Known} {v c : Ptr} {t u : V}, Sole L v t → Sole M c u → Disj L M → Extends L K → Extends M K →
    Predicts o (Placed v c u (setAt1 E t u q)) K (aSetAt1 E v c q)
  | .slice qs, K, L, M, v, c, t, u, ht, hc, hd, h1, h2 => by
    unfold aSetAt1 setAt1
    by_cases e : qs.isEmpty = true
    · rw [if_pos e, if_pos e]
      exact placed_whole E .nil ht hc hd h1 h2
    · rw [if_neg e, if_neg e]
      exact placed_at E qs ht hc hd h1 h2
  | .nil, K, L, M, v, c, t, u, ht, hc, hd, h1, h2 => by unfold aSetAt1 setAt1; exact placed_whole E _ ht hc hd h1 h2
  | .str _, K, L, M, v, c, t, u, ht, hc, hd, h1, h2 => by unfold aSetAt1 setAt1; exact placed_whole E _ ht hc hd h1 h2
  | .int _, K, L, M, v, c, t, u, ht, hc, hd, h1, h2 => by unfold aSetAt1 setAt1; exact placed_whole E _ ht hc hd h1 h2
  | .uint _, K, L, M, v, c, t, u, ht, hc, hd, h1, h2 => by unfold aSetAt1 setAt1; exact placed_whole E _ ht hc hd h1 h2
  | .other, K, L, M, v, c, t, u, ht, hc, hd, h1, h2 => by unfold aSetAt1 setAt1; exact placed_whole E _ ht hc hd h1 h2
theorem placed_at (E : Env) {o : Opt} : ∀ (ps : List Param) {K L M : Known} {v c : Ptr} {t u : V}, Sole L v t → Sole M c u → Disj L M → Extends L K → Extends M K →
    Predicts o (Placed v c u (setAt E t u ps)) K (aSetAt E v c ps)
  | [], K, L, M, v, c, t, u, ht, hc, hd, h1, h2 => by unfold aSetAt setAt; exact ⟨sole_mono h1 ht, rfl⟩
  | [p], K, L, M, v, c, t, u, ht, hc, hd, h1, h2 => by unfold aSetAt setAt; exact placed_at1 E p ht hc hd h1 h2
  | p :: next :: rest, K, L, M, v, c, t, u, ht, hc, hd, h1, h2 => by
    have ih := fun {K L M : Known} {v c : Ptr} {t u : V} (ht : Sole L v t) (hc : Sole M c u) (hd : Disj L M) (h1 : Extends L K) (h2 : Extends M K) =>
      placed_at E (o := o) (next :: rest) ht hc hd h1 h2
    unfold aSetAt setAt
    dsimp only
    generalize next :: rest = qs at ih ⊢
    by_cases e : p.isSlice = true
    · rw [if_pos e, if_pos e]
      exact ⟨sole_mono h1 ht, rfl⟩
    rw [if_neg e, if_neg e]
    have hk := sole_mono h1 ht
    refine sole_either (sole_hung hk) (hung_mono h2 (sole_hung hc)) (fun e => ?_) fun i1 i2 => ?_
    · rw [if_pos e]; exact ⟨hk, rfl⟩
    rw [if_neg (by rw [i1, i2]; simp)]
    cases ht with
    | nil => cases i1
    | leaf _ a d t ha hl =>
      refine ⟨d, h1 a d ha, ?_⟩
      cases d <;> cases t <;> first | exact hl.elim | exact ⟨hk, rfl⟩
    | arr _ a ps ts ha h =>
      refine ⟨_, h1 a _ ha, ?_⟩
      dsimp only [Cell.plain]
      cases anyToInt p with
      | ok pos =>
        dsimp only
        rw [hungL_length (soleL_hung h)]
        generalize posForRead ts.length pos = i
        by_cases e1 : i < 0
        · rw [if_pos e1, if_pos e1]
          rcases container_next next with ⟨e, g1, g2⟩ | ⟨d, t', g1, g2, g3⟩
          · rw [g1, g2]; exact ⟨hk, rfl⟩
          · rw [g1, g2]
            dsimp only
            intro b hb
            have hn := new_disj (d := d) hb h2
            refine predicts_andThen (fun K' r hq => ?_) (frame_outside hb hd h1 h2 (ih (g3 b) hc hn both_left (both_right hn)))
            obtain ⟨k1, L', ⟨k2, hr⟩, k3, k4⟩ := hq
            cases hx : (setAt E t' u qs).2 with
            | ok l =>
              rw [hx] at hr
              obtain ⟨rfl, hat, hf⟩ := hr
              have hLa : L' a = none := k3 a (by rw [ha]; simp)
              have := placed_push (K := upd K' a (.arr (ps ++ [some b]))) (a := a) upd_self h k2 (disj_mono k3 (without_extends L a) (extends_refl _))
                (by rw [without_upd]; exact without_mono a k1) (by rw [without_upd]; exact without_of k4 hLa) hf
              exact ⟨_, k1 a _ ha, _, k1 a _ ha, this.1, rfl, at_child (by simp [V.child]) hat, this.2⟩
            | err _ | panic | diverge =>
              rw [hx] at hr
              cases hr
              exact ⟨sole_mono k1 (.arr L a ps ts ha h), rfl⟩
        · rw [if_neg e1, if_neg e1]
          rcases soleL_part i.toNat h with ⟨g1, g2⟩ | ⟨q, w, L1, L2, g1, g2, g3, g4, g5, g6, g7⟩
          · rw [g1, g2]; exact ⟨hk, rfl⟩
          · rw [g1, g2]
            dsimp only
            have hdm : Disj L1 M := disj_mono hd (extends_trans g5 (without_extends L a)) (extends_refl M)
            refine predicts_mono (fun K' r hq => ?_) (frame_inside ha hd h1 h2 g4 g5 g6 (ih g3 hc hdm both_left (both_right hdm)))
            obtain ⟨k1, L', ⟨k2, hr⟩, k3, k4, k5⟩ := hq
            refine ⟨.arr _ a _ _ k1 (g7 _ L' _ k2 k3 k4 k5), ?_⟩
            have hlt : i.toNat < ts.length := (List.getElem?_eq_some_iff.1 g2).1
            have hch : (V.arr (ts.set i.toNat (setAt E w u qs).1)).child (.idx i.toNat) = some (setAt E w u qs).1 := by simp [V.child, hlt]
            cases hx : (setAt E w u qs).2 with
            | ok l =>
              rw [hx] at hr
              obtain ⟨rfl, hat, hf⟩ := hr
              refine ⟨rfl, at_child hch hat, focus_into k1 k4 k5 k3 hch (fun K2 M' w' e1 e2 e3 e4 e5 => ?_) hf⟩
              have : (V.arr (ts.set i.toNat (setAt E w u qs).1)).put (.idx i.toNat) w' = .arr (ts.set i.toNat w') := by simp [V.put]
              show Sole K2 (some a) ((V.arr (ts.set i.toNat (setAt E w u qs).1)).put (.idx i.toNat) w')
              rw [this]
              exact .arr _ a _ _ e1 (g7 _ M' _ e2 e3 e4 e5)
            | err _ | panic | diverge => rw [hx] at hr; exact hr
      | err _ | panic | diverge => exact ⟨hk, rfl⟩
    | obj _ a n es l ts ha h =>
      refine ⟨_, h1 a _ ha, ?_⟩
      dsimp only [Cell.plain]
      cases anyToString p with
      | ok k =>
        dsimp only
        rcases soleE_part k h with ⟨g1, g2⟩ | ⟨q, w, L1, L2, g1, g2, g3, g4, g5, g6, g7⟩
        · rw [g1, g2]
          dsimp only
          rcases container_next next with ⟨e, g1, g2⟩ | ⟨d, t', g1, g2, g3⟩
          · rw [g1, g2]; exact ⟨hk, rfl⟩
          · rw [g1, g2]
            dsimp only
            intro b hb
            have hn := new_disj (d := d) hb h2
            refine predicts_andThen (fun K' r hq => ?_) (frame_outside hb hd h1 h2 (ih (g3 b) hc hn both_left (both_right hn)))
            obtain ⟨k1, L', ⟨k2, hr⟩, k3, k4⟩ := hq
            cases hx : (setAt E t' u qs).2 with
            | ok l' =>
              rw [hx] at hr
              obtain ⟨rfl, hat, hf⟩ := hr
              have hLa : L' a = none := k3 a (by rw [ha]; simp)
              refine ⟨_, k1 a _ ha, ?_⟩
              dsimp only [Cell.plain]
              refine predicts_andThen (fun K2 r hq => ?_) (placed_key E k (k1 a _ ha) h k2 (disj_mono k3 (without_extends L a) (extends_refl _)) (without_mono a k1)
                (without_of k4 hLa) hf)
              obtain ⟨rfl, hq⟩ := hq
              exact ⟨hq.1, rfl, at_child (w := (setAt E t' u qs).1) (by simp only [setKey, V.child, lookup_assigned]; rfl) hat, hq.2⟩
            | err _ | panic | diverge =>
              rw [hx] at hr
              cases hr
              exact ⟨sole_mono k1 (.obj L a n es l ts ha h), rfl⟩
        · rw [g1, g2]
          dsimp only
          have hdm : Disj L1 M := disj_mono hd (extends_trans g5 (without_extends L a)) (extends_refl M)
          refine predicts_mono (fun K' r hq => ?_) (frame_inside ha hd h1 h2 g4 g5 g6 (ih g3 hc hdm both_left (both_right hdm)))
          obtain ⟨k1, L', ⟨k2, hr⟩, k3, k4, k5⟩ := hq
          refine ⟨.obj _ a _ _ _ _ k1 (g7 _ L' _ k2 k3 k4 k5), ?_⟩
          have hch : (V.obj n (putKey k (setAt E w.v u qs).1 ts) l).child (.key k) = some (setAt E w.v u qs).1 := lookup_putted g2
          cases hx : (setAt E w.v u qs).2 with
          | ok l' =>
            rw [hx] at hr
            obtain ⟨rfl, hat, hf⟩ := hr
            refine ⟨rfl, at_child hch hat, focus_into k1 k4 k5 k3 hch (fun K2 M' w' e1 e2 e3 e4 e5 => ?_) hf⟩
            simp only [V.put, putKey_putted]
            exact .obj _ a _ _ _ _ e1 (g7 _ M' _ e2 e3 e4 e5)
          | err _ | panic | diverge => rw [hx] at hr; exact hr
      | err _ | panic | diverge => exact ⟨hk, rfl⟩
end

theorem sole_appendTo {o : Opt} {K L M : Known} {p c : Ptr} {t u : V} (beg : Bool) (ht : Sole L p t) (hc : Sole M c u) (hd : Disj L M)
    (h1 : Extends L K) (h2 : Extends M K) : Predicts o (fun K' _ => Sole K' p (appendTo beg t u).1) K (aAppendTo beg p c) := by
  have hk := sole_mono h1 ht
  cases ht with
  | nil => exact hk
  | leaf _ a d t ha hl =>
    refine ⟨d, h1 a d ha, ?_⟩
    cases d <;> cases t <;> first | exact hl.elim | exact hk
  | obj _ a n es l ts ha h => exact ⟨_, h1 a _ ha, hk⟩
  | arr _ a ps ts ha h =>
    have hm : M a = none := hd a (by rw [ha]; simp)
    have e1 : Extends (without L a) (without K a) := without_mono a h1
    have e2 : Extends M (without K a) := without_of h2 hm
    have e3 : Disj (without L a) M := disj_mono hd (without_extends L a) (extends_refl M)
    refine ⟨_, h1 a _ ha, ?_⟩
    dsimp only [Cell.plain]
    unfold appendTo
    dsimp only
    have hlen := hungL_length (soleL_hung h)
    have he : ps.isEmpty = ts.isEmpty := by cases ps <;> cases ts <;> first | rfl | simp at hlen
    rw [he]
    by_cases i : (beg && !ts.isEmpty) = true
    · rw [if_pos i, if_pos i, insertToArr_eq _ _ _ (Nat.zero_le _), insertToArr_eq _ _ _ (Nat.zero_le _)]
      exact ⟨_, h1 a _ ha, .arr _ a _ _ upd_self (by rw [without_upd]; exact soleL_insert 0 h hc e3 e1 e2)⟩
    · rw [if_neg i, if_neg i]
      exact ⟨_, h1 a _ ha, .arr _ a _ _ upd_self (by rw [without_upd]; exact soleL_snoc h hc e3 e1 e2)⟩

theorem sole_appendPath (E : Env) {o : Opt} {K L M : Known} {p c : Ptr} {t u : V} (beg : Bool) (ps : List Param) (ht : Sole L p t) (hc : Sole M c u) (hd : Disj L M)
    (h1 : Extends L K) (h2 : Extends M K) : Predicts o (fun K' _ => Sole K' p (appendPath E beg t u ps).1) K (aAppendPath E beg p c ps) := by
  have hk := sole_mono h1 ht
  unfold aAppendPath appendPath
  refine predicts_andThen (fun K' r hq => ?_) (reaching_array E (o := o) ps ht h1)
  obtain ⟨rfl, hq⟩ := hq
  cases hx : locArray E t ps with
  | ok l =>
    rw [hx] at hq
    obtain ⟨z, w, rfl, hat, hf⟩ := hq
    dsimp only [prefixLoc]
    rw [modify_at _ hat]
    exact sole_focus hf hd h1 h2 fun L' hL hs' => sole_appendTo beg hs' hc (disj_mono hd hL (extends_refl _)) both_left (both_right (disj_mono hd hL (extends_refl _)))
  | panic | diverge =>
    rw [hx] at hq
    cases hq
    exact hk
  | err e =>
    rw [hx] at hq
    cases hq
    cases e <;> first | exact hk | skip
    intro b hb
    have hn : Sole (upd nothing b (.arr [])) (some b) newArray := .arr _ b _ _ upd_self (.nil _)
    have hdn : Disj L (upd nothing b (.arr [])) := disj_symm (new_disj hb h1)
    have hdm : Disj M (upd nothing b (.arr [])) := disj_symm (new_disj hb h2)
    have hnk : Extends (upd nothing b (.arr [])) (upd K' b (.arr [])) := fun x y h => by
      unfold upd at h ⊢
      split
      · next e => rw [if_pos e] at h; exact h
      · next e => rw [if_neg e] at h; cases h
    have hnew := extends_upd (.arr []) hb
    refine predicts_andThen (fun K2 r hq => ?_) (predicts_frame (placed_at E (o := o) ps ht hn hdn both_left (both_right hdn))
      (both_extends (extends_trans h1 hnew) hnk))
    obtain ⟨L', ⟨k1, k2⟩, k3, k4⟩ := hq
    have g : ∀ z, M z ≠ none → L' z = none ∧ K2 z = M z := fun z hz => by
      have hK : upd K' b (.arr []) z = M z := extends_ne (extends_trans h2 hnew) hz
      have := k4 z (both_none (disj_symm hd z hz) (hdm z hz)) (by rw [hK]; exact hz)
      rw [hK] at this
      exact this
    have hM : Extends M K2 := fun z y hz => by rw [(g z (by rw [hz]; simp)).2, hz]
    have hD : Disj L' M := disj_symm fun z hz => (g z hz).1
    dsimp only
    generalize setAt E t newArray ps = y at k1 k2
    obtain ⟨t', y⟩ := y
    cases y with
    | ok l =>
      obtain ⟨rfl, hat, hf⟩ := k2
      dsimp only [prefixLoc]
      rw [modify_at _ hat]
      exact sole_focus hf hD k3 hM fun L1 hL hs' => sole_appendTo beg hs' hc (disj_mono hD hL (extends_refl _)) both_left (both_right (disj_mono hD hL (extends_refl _)))
    | err _ | panic | diverge =>
      cases k2
      exact sole_mono k3 k1

mutual
theorem sole_append1 (E : Env) (beg : Bool) {o : Opt} : ∀ (q : Param) {K L M : Known} {p c : Ptr} {t u : V}, Sole L p t → Sole M c u → Disj L M → Extends L K →
    Extends M K → Predicts o (fun K' _ => Sole K' p (appendAt1 E beg t u q).1) K (aAppendAt1 E beg p c q)
  | .slice qs, K, L, M, p, c, t, u, h, hc, hd, he, hm => by unfold aAppendAt1 appendAt1; exact sole_append E beg qs h hc hd he hm
  | .nil, K, L, M, p, c, t, u, h, hc, hd, he, hm => by unfold aAppendAt1 appendAt1; exact sole_appendPath E beg _ h hc hd he hm
  | .str _, K, L, M, p, c, t, u, h, hc, hd, he, hm => by unfold aAppendAt1 appendAt1; exact sole_appendPath E beg _ h hc hd he hm
  | .int _, K, L, M, p, c, t, u, h, hc, hd, he, hm => by unfold aAppendAt1 appendAt1; exact sole_appendPath E beg _ h hc hd he hm
  | .uint _, K, L, M, p, c, t, u, h, hc, hd, he, hm => by unfold aAppendAt1 appendAt1; exact sole_appendPath E beg _ h hc hd he hm
  | .other, K, L, M, p, c, t, u, h, hc, hd, he, hm => by unfold aAppendAt1 appendAt1; exact sole_appendPath E beg _ h hc hd he hm
theorem sole_append (E : Env) (beg : Bool) {o : Opt} : ∀ (ps : List Param) {K L M : Known} {p c : Ptr} {t u : V}, Sole L p t → Sole M c u → Disj L M →
    Extends L K → Extends M K → Predicts o (fun K' _ => Sole K' p (appendAt E beg t u ps).1) K (aAppendAt E beg p c ps)
  | [], K, L, M, p, c, t, u, h, hc, hd, he, hm => by
    have hk := sole_mono he h
    have hto := sole_appendTo (o := o) beg h hc hd he hm
    unfold aAppendAt appendAt
    cases h with
    | nil => cases beg <;> exact hk
    | leaf _ a d t ha hl =>
      refine ⟨d, he a d ha, ?_⟩
      cases d <;> cases t <;> first | exact hl.elim | exact hk
    | obj _ a n es l ts ha h => exact ⟨_, he a _ ha, hk⟩
    | arr _ a ps ts hb h => exact ⟨_, he a _ hb, hto⟩
  | q :: rest, K, L, M, p, c, t, u, h, hc, hd, he, hm => by
    have ih1 := sole_append1 E beg (o := o) q h hc hd he hm
    have ih2 := sole_appendPath E (o := o) beg (q :: rest) h hc hd he hm
    have hk := sole_mono he h
    unfold aAppendAt appendAt
    cases p with
    | none => cases h; cases beg <;> exact hk
    | some a =>
      dsimp only
      refine predicts_uninit (sole_hung hk) ?_
      have hmain : Predicts o (fun K' _ => Sole K' (some a) (if (q.isSlice && !rest.isEmpty) = true then (t, .err .multipleParam)
          else if q.isSlice = true then appendAt1 E beg t u q else appendPath E beg t u (q :: rest)).1) K
          (if (q.isSlice && !rest.isEmpty) = true then .ret (.err .multipleParam)
            else if q.isSlice = true then aAppendAt1 E beg (some a) c q else aAppendPath E beg (some a) c (q :: rest)) := by
        by_cases e1 : (q.isSlice && !rest.isEmpty) = true
        · rw [if_pos e1, if_pos e1]; exact hk
        · rw [if_neg e1, if_neg e1]
          by_cases e2 : q.isSlice = true
          · rw [if_pos e2, if_pos e2]; exact ih1
          · rw [if_neg e2, if_neg e2]; exact ih2
      cases t <;> first | exact hmain | exact hk | (cases beg <;> exact hk)
end

theorem noIndex_appendTo {t u : V} (beg : Bool) (ht : noIndex t = t) (hu : noIndex u = u) : noIndex (appendTo beg t u).1 = (appendTo beg t u).1 := by
  unfold appendTo
  split
  · next xs =>
    have h1 : noIndexL xs = xs := by simpa [noIndex] using ht
    split
    · split
      · next hi => simp only [noIndex]; rw [noIndex_insertToArr hi h1 hu]
      · exact ht
    · simp only [noIndex]; rw [noIndexL_append hu h1]
  · exact ht
  · exact ht

theorem noIndex_appendPath (E : Env) {t u : V} (beg : Bool) (ps : List Param) (ht : noIndex t = t) (hu : noIndex u = u) :
    noIndex (appendPath E beg t u ps).1 = (appendPath E beg t u ps).1 := by
  have hs := noIndex_setAt E (u := newArray) rfl ps ht
  unfold appendPath
  split
  · exact noIndex_modify _ (fun w hw => noIndex_appendTo beg hw hu) _ ht
  · split
    · next h => rw [h] at hs; exact noIndex_modify _ (fun w hw => noIndex_appendTo beg hw hu) _ hs
    · next h => rw [h] at hs; exact hs
    · next h => rw [h] at hs; exact hs
    · next h => rw [h] at hs; exact hs
  · exact ht
  · exact ht
  · exact ht

mutual
theorem noIndex_append1 (E : Env) (beg : Bool) {u : V} (hu : noIndex u = u) : ∀ (q : Param) {t : V}, noIndex t = t →
    noIndex (appendAt1 E beg t u q).1 = (appendAt1 E beg t u q).1
  | .slice qs, t, ht => by unfold appendAt1; exact noIndex_append E beg hu qs ht
  | .nil, t, ht => by unfold appendAt1; exact noIndex_appendPath E beg _ ht hu
  | .str _, t, ht => by unfold appendAt1; exact noIndex_appendPath E beg _ ht hu
  | .int _, t, ht => by unfold appendAt1; exact noIndex_appendPath E beg _ ht hu
  | .uint _, t, ht => by unfold appendAt1; exact noIndex_appendPath E beg _ ht hu
  | .other, t, ht => by unfold appendAt1; exact noIndex_appendPath E beg _ ht hu
theorem noIndex_append (E : Env) (beg : Bool) {u : V} (hu : noIndex u = u) : ∀ (ps : List Param) {t : V}, noIndex t = t →
    noIndex (appendAt E beg t u ps).1 = (appendAt E beg t u ps).1
  | [], t, ht => by
    unfold appendAt
    split
    · split <;> exact ht
    · exact ht
    · exact noIndex_appendTo beg ht hu
    · exact ht
  | q :: rest, t, ht => by
    have ih := noIndex_append1 E beg hu q ht
    unfold appendAt
    split
    · split <;> exact ht
    · exact ht
    · split
      · exact ht
      · split
        · exact ih
        · exact noIndex_appendPath E beg _ ht hu
end

theorem noIndex_changes (E : Env) : ∀ (l : List PathEdit) {t : V}, (∀ x ∈ l, x.NewDoc) → noIndex t = t → noIndex (pathEdited E t l) = pathEdited E t l
  | [], _, _, ht => ht
  | x :: l, t, hl, ht => by
    unfold pathEdited
    have hx := hl x List.mem_cons_self
    refine noIndex_changes E l (fun x hx => hl x (List.mem_cons_of_mem _ hx)) ?_
    cases x with
    | set u ps => exact noIndex_setAt E hx ps ht
    | insert after u ps => exact noIndex_insert E after hx ps [] ht
    | append beg u ps => exact noIndex_append E beg hx ps ht
    | delete ps => exact noIndex_delete E ps [] ht

theorem sole_change (E : Env) {o : Opt} {K : Known} {p : Ptr} {t : V} (x : PathEdit) (ht : Sole K p t) :
    Predicts o (fun K' _ => Sole K' p (x.result E t)) K (x.act E p) := by
  cases x with
  | set u ps => exact predicts_mono (fun K' r ⟨c, h, _⟩ => h) (sole_fresh E u ps ht)
  | insert after u ps =>
    refine predicts_andThen (fun K' r h => ?_) (predicts_besides K (predicts_sole u))
    obtain ⟨L, ⟨c, rfl, hc⟩, h1, h2, h3⟩ := h
    exact sole_insert E after ps [] ht hc h3 h2 h1
  | append beg u ps =>
    refine predicts_andThen (fun K' r h => ?_) (predicts_besides K (predicts_sole u))
    obtain ⟨L, ⟨c, rfl, hc⟩, h1, h2, h3⟩ := h
    exact sole_append E beg ps ht hc h3 h2 h1
  | delete ps => exact sole_delete E ps [] ht (extends_refl K)

theorem sole_changes (E : Env) {o : Opt} : ∀ (l : List PathEdit) {K : Known} {p : Ptr} {t : V}, Sole K p t →
    Predicts o (fun K' r => ∃ u, r = .ok u ∧ Sole K' p (pathEdited E t l)) K (aPathEdits E p l)
  | [], K, p, t, ht => ⟨_, rfl, ht⟩
  | x :: l, K, p, t, ht => by
    unfold aPathEdits pathEdited
    have ih := fun {K : Known} {p : Ptr} {t : V} (h : Sole K p t) => sole_changes E (o := o) l h
    exact predicts_andThen (fun K' r h => ih h) (sole_change E x ht)

end JV
