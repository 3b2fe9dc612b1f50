import Verif.Proofs.ThreadsEdit
/-! Documents whose objects are in one place each, and Set with any path on them. -/
namespace JV
open Spec

variable {α : Type}

/-- nothing in common -/
def Disj (L M : Known) : Prop := ∀ a, L a ≠ none → M a = none

theorem disj_symm {L M : Known} (h : Disj L M) : Disj M L := fun a ha => by
  cases hl : L a with
  | none => rfl
  | some c => exact absurd (h a (by rw [hl]; simp)) ha

theorem extends_ne {L K : Known} (h : Extends L K) {a : Nat} (ha : L a ≠ none) : K a = L a := by
  cases hl : L a with
  | none => exact absurd hl ha
  | some c => exact h a c hl

theorem disj_mono {L L' M M' : Known} (h : Disj L M) (h1 : Extends L' L) (h2 : Extends M' M) : Disj L' M' := fun a ha => by
  cases hm : M' a with
  | none => rfl
  | some c =>
    have := h a (by rw [extends_ne h1 ha]; exact ha)
    rw [h2 a c hm] at this
    cases this

def both (L M : Known) : Known := fun a => match L a with | some c => some c | none => M a

theorem both_none {L M : Known} {a : Nat} (h1 : L a = none) (h2 : M a = none) : both L M a = none := by unfold both; rw [h1]; exact h2
theorem both_ne {L M : Known} {a : Nat} (h : both L M a ≠ none) : L a ≠ none ∨ M a ≠ none := by
  unfold both at h
  split at h
  · next h1 => exact .inl (by rw [h1]; simp)
  · exact .inr h
theorem both_left {L M : Known} : Extends L (both L M) := fun a c h => by unfold both; rw [h]
theorem both_right {L M : Known} (hd : Disj L M) : Extends M (both L M) := fun a c h => by
  unfold both
  rw [disj_symm hd a (by rw [h]; simp)]
  exact h
theorem both_extends {L M K : Known} (h1 : Extends L K) (h2 : Extends M K) : Extends (both L M) K := fun a c h => by
  unfold both at h
  split at h
  · next hc => cases h; exact h1 a _ hc
  · exact h2 a c h
theorem disj_both {L M N : Known} (h1 : Disj L M) (h2 : Disj L N) : Disj L (both M N) := fun a ha => both_none (h1 a ha) (h2 a ha)

theorem without_mono {L K : Known} (a : Nat) (h : Extends L K) : Extends (without L a) (without K a) := without_of (extends_trans (without_extends L a) h) (without_self L a)

mutual
/-- the document `t` at `p`, each object of it in one place -/
inductive Sole : Known → Ptr → V → Prop
  | nil (K : Known) : Sole K none .nilp
  | leaf (K : Known) (a : Nat) (c : Cell) (t : V) (ha : K a = some c) (hc : LeafOf c t) : Sole K (some a) t
  | arr (K : Known) (a : Nat) (ps : List Ptr) (ts : List V) (ha : K a = some (.arr ps)) (h : SoleL (without K a) ps ts) : Sole K (some a) (.arr ts)
  | obj (K : Known) (a : Nat) (n : BitVec 32) (es : List HEnt) (l : Low) (ts : List Ent) (ha : K a = some (.obj n es l)) (h : SoleE (without K a) es ts) :
      Sole K (some a) (.obj n ts l)
inductive SoleL : Known → List Ptr → List V → Prop
  | nil (K : Known) : SoleL K [] []
  | cons (K L M : Known) (p : Ptr) (ps : List Ptr) (t : V) (ts : List V) (h1 : Extends L K) (h2 : Extends M K) (hd : Disj L M) (h : Sole L p t)
      (hs : SoleL M ps ts) : SoleL K (p :: ps) (t :: ts)
inductive SoleE : Known → List HEnt → List Ent → Prop
  | nil (K : Known) : SoleE K [] []
  | cons (K L M : Known) (k : Bytes) (i : BitVec 32) (p : Ptr) (es : List HEnt) (t : V) (ts : List Ent) (h1 : Extends L K) (h2 : Extends M K) (hd : Disj L M)
      (h : Sole L p t) (hs : SoleE M es ts) : SoleE K (⟨k, i, p⟩ :: es) (⟨k, i, t⟩ :: ts)
end

theorem soleL_mono {K K' : Known} {ps : List Ptr} {ts : List V} (he : Extends K K') (h : SoleL K ps ts) : SoleL K' ps ts := by
  cases h with
  | nil => exact .nil _
  | cons _ L M p ps t ts h1 h2 hd h hs => exact .cons _ L M _ _ _ _ (extends_trans h1 he) (extends_trans h2 he) hd h hs
theorem soleE_mono {K K' : Known} {ps : List HEnt} {ts : List Ent} (he : Extends K K') (h : SoleE K ps ts) : SoleE K' ps ts := by
  cases h with
  | nil => exact .nil _
  | cons _ L M k i p ps t ts h1 h2 hd h hs => exact .cons _ L M _ _ _ _ _ _ (extends_trans h1 he) (extends_trans h2 he) hd h hs
theorem sole_mono {K K' : Known} {p : Ptr} {t : V} (he : Extends K K') (h : Sole K p t) : Sole K' p t := by
  cases h with
  | nil => exact .nil _
  | leaf _ a c t ha hc => exact .leaf _ a c t (he a c ha) hc
  | arr _ a ps ts ha h => exact .arr _ a ps ts (he a _ ha) (soleL_mono (without_mono a he) h)
  | obj _ a n es l ts ha h => exact .obj _ a n es l ts (he a _ ha) (soleE_mono (without_mono a he) h)

mutual
theorem sole_hung : ∀ {K : Known} {p : Ptr} {t : V}, Sole K p t → Hung K p t
  | _, _, _, .nil _ => .nil
  | _, _, _, .leaf _ a c t ha hc => .leaf a c t ha hc
  | K, _, _, .arr _ a ps ts ha h => .arr a ps ts ha (hungL_mono (without_extends K a) (soleL_hung h))
  | K, _, _, .obj _ a n es l ts ha h => .obj a n es l l ts ha (hungE_mono (without_extends K a) (soleE_hung h))
theorem soleL_hung : ∀ {K : Known} {ps : List Ptr} {ts : List V}, SoleL K ps ts → HungL K ps ts
  | _, _, _, .nil _ => .nil
  | _, _, _, .cons _ L M p ps t ts h1 h2 hd h hs => .cons _ _ _ _ (hung_mono h1 (sole_hung h)) (hungL_mono h2 (soleL_hung hs))
theorem soleE_hung : ∀ {K : Known} {ps : List HEnt} {ts : List Ent}, SoleE K ps ts → HungE K ps ts
  | _, _, _, .nil _ => .nil
  | _, _, _, .cons _ L M k i p ps t ts h1 h2 hd h hs => .cons _ _ _ _ _ _ (hung_mono h1 (sole_hung h)) (hungE_mono h2 (soleE_hung hs))
end

def nothing : Known := fun _ => none

/-- beside what is known -/
theorem predicts_besides {o : Opt} {Q : Known → R α → Prop} {p : Act α} (K : Known) (h : Predicts o Q nothing p) :
    Predicts o (fun K' r => ∃ L, Q L r ∧ Extends L K' ∧ Extends K K' ∧ Disj K L) K p :=
  predicts_mono (fun K' r ⟨L, h1, h2, h3⟩ => ⟨L, h1, h2, (fun a c ha => by
      have := (h3 a rfl (by rw [ha]; simp)).2
      rw [this, ha]), fun a ha => (h3 a rfl ha).1⟩)
    (predicts_frame h fun a c ha => by cases ha)

theorem without_new {K : Known} {a : Nat} {c : Cell} (ha : K a = none) : without (upd K a c) a = K := by
  rw [without_upd]
  funext b
  unfold without
  split
  · next e => rw [e, ha]
  · rfl

mutual
theorem predicts_sole {o : Opt} : ∀ (t : V), Predicts o (fun K r => ∃ p, r = .ok p ∧ Sole K p t) nothing (aBuild t)
  | .nilp => by unfold aBuild; exact ⟨_, rfl, .nil _⟩
  | .notExist => by unfold aBuild; exact predicts_new fun a ha => ⟨_, rfl, .leaf _ a _ _ upd_self trivial⟩
  | .str s => by unfold aBuild; exact predicts_new fun a ha => ⟨_, rfl, .leaf _ a _ _ upd_self rfl⟩
  | .num s n => by unfold aBuild; exact predicts_new fun a ha => ⟨_, rfl, .leaf _ a _ _ upd_self ⟨rfl, rfl⟩⟩
  | .bool b => by unfold aBuild; exact predicts_new fun a ha => ⟨_, rfl, .leaf _ a _ _ upd_self rfl⟩
  | .null => by unfold aBuild; exact predicts_new fun a ha => ⟨_, rfl, .leaf _ a _ _ upd_self trivial⟩
  | .arr xs => by
    unfold aBuild
    exact predicts_onOk (predicts_soles xs) fun K' ps h => predicts_new fun a ha => ⟨_, rfl, .arr _ a _ _ upd_self (by rw [without_new ha]; exact h)⟩
  | .obj n kvs low => by
    unfold aBuild
    exact predicts_onOk (predicts_soleEnts kvs) fun K' ps h => predicts_new fun a ha => ⟨_, rfl, .obj _ a _ _ _ _ upd_self (by rw [without_new ha]; exact h)⟩
theorem predicts_soles {o : Opt} : ∀ (ts : List V), Predicts o (fun K r => ∃ ps, r = .ok ps ∧ SoleL K ps ts) nothing (aBuilds ts)
  | [] => by unfold aBuilds; exact ⟨_, rfl, .nil _⟩
  | v :: vs => by
    unfold aBuilds
    have ih := predicts_soles (o := o) vs
    refine predicts_onOk (predicts_sole v) fun K p hp => predicts_andThen (fun K' r h => ?_) (predicts_besides K ih)
    obtain ⟨L, ⟨ps, rfl, hs⟩, h1, h2, h3⟩ := h
    exact ⟨_, rfl, .cons _ K L _ _ _ _ h2 h1 h3 hp hs⟩
theorem predicts_soleEnts {o : Opt} : ∀ (ts : List Ent), Predicts o (fun K r => ∃ ps, r = .ok ps ∧ SoleE K ps ts) nothing (aBuildEnts ts)
  | [] => by unfold aBuildEnts; exact ⟨_, rfl, .nil _⟩
  | .mk k i v :: vs => by
    unfold aBuildEnts
    have ih := predicts_soleEnts (o := o) vs
    refine predicts_onOk (predicts_sole v) fun K p hp => predicts_andThen (fun K' r h => ?_) (predicts_besides K ih)
    obtain ⟨L, ⟨ps, rfl, hs⟩, h1, h2, h3⟩ := h
    exact ⟨_, rfl, .cons _ K L _ _ _ _ _ _ h2 h1 h3 hp hs⟩
end

/-! ## one more, or another one -/

theorem soleL_snoc {c : Ptr} {u : V} : ∀ {K L M : Known} {ps : List Ptr} {ts : List V}, SoleL L ps ts → Sole M c u → Disj L M → Extends L K → Extends M K →
    SoleL K (ps ++ [c]) (ts ++ [u])
  | K, L, M, _, _, .nil _, hc, hd, h1, h2 => .cons _ M nothing _ _ _ _ h2 (fun a c h => by cases h) (fun a _ => rfl) hc (.nil _)
  | K, L, M, _, _, .cons _ L1 L2 p ps t ts e1 e2 hd' h hs, hc, hd, h1, h2 =>
    .cons _ L1 (both L2 M) _ _ _ _ (extends_trans e1 h1) (both_extends (extends_trans e2 h1) h2) (disj_both hd' (disj_mono hd e1 (extends_refl M))) h
      (soleL_snoc hs hc (disj_mono hd e2 (extends_refl M)) both_left (both_right (disj_mono hd e2 (extends_refl M))))

theorem soleL_set {c : Ptr} {u : V} : ∀ {K L M : Known} {ps : List Ptr} {ts : List V} (n : Nat), SoleL L ps ts → Sole M c u → Disj L M → Extends L K → Extends M K →
    SoleL K (ps.set n c) (ts.set n u)
  | K, L, M, _, _, _, .nil _, hc, hd, h1, h2 => .nil _
  | K, L, M, _, _, 0, .cons _ L1 L2 p ps t ts e1 e2 hd' h hs, hc, hd, h1, h2 =>
    .cons _ M L2 _ _ _ _ h2 (extends_trans e2 h1) (disj_symm (disj_mono hd e2 (extends_refl M))) hc hs
  | K, L, M, _, _, n + 1, .cons _ L1 L2 p ps t ts e1 e2 hd' h hs, hc, hd, h1, h2 =>
    .cons _ L1 (both L2 M) _ _ _ _ (extends_trans e1 h1) (both_extends (extends_trans e2 h1) h2) (disj_both hd' (disj_mono hd e1 (extends_refl M))) h
      (soleL_set n hs hc (disj_mono hd e2 (extends_refl M)) both_left (both_right (disj_mono hd e2 (extends_refl M))))

theorem soleE_assign {c : Ptr} {u : V} {k : Bytes} {i : BitVec 32} : ∀ {K L M : Known} {es : List HEnt} {ts : List Ent}, SoleE L es ts → Sole M c u → Disj L M →
    Extends L K → Extends M K → SoleE K (hassign ⟨k, i, c⟩ es) (assign ⟨k, i, u⟩ ts)
  | K, L, M, _, _, .nil _, hc, hd, h1, h2 => .cons _ M nothing _ _ _ _ _ _ h2 (fun a c h => by cases h) (fun a _ => rfl) hc (.nil _)
  | K, L, M, _, _, .cons _ L1 L2 k' j p es t ts e1 e2 hd' h hs, hc, hd, h1, h2 => by
    unfold hassign assign
    by_cases e : k' = k
    · rw [if_pos e, if_pos (by exact e)]
      exact .cons _ M L2 _ _ _ _ _ _ h2 (extends_trans e2 h1) (disj_symm (disj_mono hd e2 (extends_refl M))) hc hs
    · rw [if_neg e, if_neg (by exact e)]
      exact .cons _ L1 (both L2 M) _ _ _ _ _ _ (extends_trans e1 h1) (both_extends (extends_trans e2 h1) h2) (disj_both hd' (disj_mono hd e1 (extends_refl M))) h
        (soleE_assign hs hc (disj_mono hd e2 (extends_refl M)) both_left (both_right (disj_mono hd e2 (extends_refl M))))

/-- one part, and the rest, into which another document fits at that pointer -/
theorem soleL_part : ∀ {L : Known} {ps : List Ptr} {ts : List V} (n : Nat), SoleL L ps ts →
    (ps[n]? = none ∧ ts[n]? = none) ∨ ∃ p t L1 L2, ps[n]? = some p ∧ ts[n]? = some t ∧ Sole L1 p t ∧ Disj L1 L2 ∧ Extends L1 L ∧ Extends L2 L ∧
      ∀ K L' t', Sole L' p t' → Disj L' L2 → Extends L' K → Extends L2 K → SoleL K ps (ts.set n t')
  | L, _, _, _, .nil _ => .inl ⟨rfl, rfl⟩
  | L, _, _, 0, .cons _ L1 L2 p ps t ts e1 e2 hd h hs =>
    .inr ⟨p, t, L1, L2, rfl, rfl, h, hd, e1, e2, fun K L' t' h' hd' k1 k2 => .cons _ L' L2 _ _ _ _ k1 k2 hd' h' hs⟩
  | L, _, _, n + 1, .cons _ L1 L2 p ps t ts e1 e2 hd h hs => by
    rcases soleL_part n hs with h' | ⟨q, u, M1, M2, h1, h2, h3, h4, h5, h6, h7⟩
    · exact .inl h'
    · have hm2 : Disj L1 M2 := disj_mono hd (extends_refl _) h6
      refine .inr ⟨q, u, M1, both L1 M2, h1, h2, h3, disj_both (disj_symm (disj_mono hd (extends_refl _) h5)) h4, extends_trans h5 e2,
        both_extends e1 (extends_trans h6 e2), fun K L' t' h' hd' k1 k2 => ?_⟩
      have d1 : Disj L' L1 := disj_mono hd' (extends_refl _) both_left
      have d2 : Disj L' M2 := disj_mono hd' (extends_refl _) (both_right hm2)
      exact .cons _ L1 (both L' M2) _ _ _ _ (extends_trans both_left k2) (both_extends k1 (extends_trans (both_right hm2) k2))
        (disj_both (disj_symm d1) hm2) h (h7 _ L' t' h' d2 both_left (both_right d2))

theorem soleE_part (k : Bytes) : ∀ {L : Known} {es : List HEnt} {ts : List Ent}, SoleE L es ts →
    (hlookup k es = none ∧ lookup k ts = none) ∨ ∃ e t L1 L2, hlookup k es = some e ∧ lookup k ts = some t ∧ Sole L1 e.v t.v ∧ Disj L1 L2 ∧ Extends L1 L ∧
      Extends L2 L ∧ ∀ K L' t', Sole L' e.v t' → Disj L' L2 → Extends L' K → Extends L2 K → SoleE K es (putKey k t' ts)
  | L, _, _, .nil _ => .inl ⟨rfl, rfl⟩
  | L, _, _, .cons _ L1 L2 k' i p es t ts e1 e2 hd h hs => by
    unfold hlookup lookup putKey
    by_cases e : k' = k
    · rw [if_pos e, Ent.key_mk, if_pos e]
      refine .inr ⟨_, _, L1, L2, rfl, rfl, h, hd, e1, e2, fun K L' t' h' hd' k1 k2 => ?_⟩
      rw [if_pos e]
      exact .cons _ L' L2 _ _ _ _ _ _ k1 k2 hd' h' hs
    · rw [if_neg e, Ent.key_mk, if_neg e]
      rcases soleE_part k hs with h' | ⟨q, u, M1, M2, h1, h2, h3, h4, h5, h6, h7⟩
      · exact .inl h'
      · have hm2 : Disj L1 M2 := disj_mono hd (extends_refl _) h6
        refine .inr ⟨q, u, M1, both L1 M2, h1, h2, h3, disj_both (disj_symm (disj_mono hd (extends_refl _) h5)) h4, extends_trans h5 e2,
          both_extends e1 (extends_trans h6 e2), fun K L' t' h' hd' k1 k2 => ?_⟩
        have d1 : Disj L' L1 := disj_mono hd' (extends_refl _) both_left
        have d2 : Disj L' M2 := disj_mono hd' (extends_refl _) (both_right hm2)
        rw [if_neg e]
        exact .cons _ L1 (both L' M2) _ _ _ _ _ _ (extends_trans both_left k2) (both_extends k1 (extends_trans (both_right hm2) k2))
          (disj_both (disj_symm d1) hm2) h (h7 _ L' t' h' d2 both_left (both_right d2))

/-! ## Set -/

/-- the pointer, or the error, panic or endless loop -/
def Same (c : Ptr) (s : R (List Step)) (r : R Ptr) : Prop :=
  match s with
  | .ok _ => r = .ok c
  | .err e => r = .err e
  | .panic => r = .panic
  | .diverge => r = .diverge

/-- the document after the call, and what was returned -/
def AfterSet (v c : Ptr) (x : V × R (List Step)) : Known → R Ptr → Prop := fun K r => Sole K v x.1 ∧ Same c x.2 r

theorem predicts_key (E : Env) {o : Opt} {K L M : Known} {a : Nat} {n : BitVec 32} {es : List HEnt} {l : Low} {ts : List Ent} {c : Ptr} {u : V} (k : Bytes)
    (ha : K a = some (.obj n es l)) (h : SoleE L es ts) (hc : Sole M c u) (hd : Disj L M) (h1 : Extends L (without K a)) (h2 : Extends M (without K a)) :
    Predicts o (fun K' r => r = .ok c ∧ Sole K' (some a) (setKey E n ts l k u)) K (aSetKey E a n es k c) := by
  unfold aSetKey
  refine ⟨_, ha, _, upd_self, ?_⟩
  dsimp only [Cell.withIndex, Cell.index]
  have hu := soleE_assign (k := k) (i := n + 1) h hc hd h1 h2
  cases l with
  | none => exact ⟨rfl, .obj _ a _ _ _ _ upd_self (by rw [without_upd]; exact hu)⟩
  | some m => exact ⟨_, upd_self, rfl, .obj _ a _ _ _ _ upd_self (by rw [without_upd, without_upd]; exact hu)⟩

theorem sole_last (E : Env) {o : Opt} {K L M : Known} {v c : Ptr} {t u : V} (q : Param) (ht : Sole L v t) (hc : Sole M c u) (hd : Disj L M) (h1 : Extends L K)
    (h2 : Extends M K) (hu : t.uninit = false) : Predicts o (AfterSet v c (atLastParam E t u q)) K (aSetLast E v c q) := by
  cases ht with
  | nil => cases hu
  | leaf _ a d t ha hl =>
    refine ⟨d, h1 a d ha, ?_⟩
    have hk : Sole K (some a) t := .leaf K a d t (h1 a d ha) hl
    cases d <;> cases t <;> first | exact hl.elim | exact ⟨hk, rfl⟩
  | arr _ a ps ts ha h =>
    have hk : Sole K (some a) (.arr ts) := sole_mono h1 (.arr L a ps ts ha h)
    have hm : M a = none := hd a (by rw [ha]; simp)
    have e1 : Extends (without L a) (without K a) := without_mono a h1
    have e2 : Extends M (without K a) := without_of h2 hm
    have e3 : Disj (without L a) M := disj_mono hd (without_extends L a) (extends_refl M)
    refine ⟨_, h1 a _ ha, ?_⟩
    dsimp only [Cell.plain]
    unfold atLastParam
    cases hp : anyToInt q with
    | ok pos =>
      dsimp only
      unfold setAtIndex
      rw [hungL_length (soleL_hung h)]
      by_cases i1 : pos = ts.length
      · rw [if_pos i1, if_pos i1]
        exact ⟨_, h1 a _ ha, .arr _ a _ _ upd_self (by rw [without_upd]; exact soleL_snoc h hc e3 e1 e2), rfl⟩
      · rw [if_neg i1, if_neg i1]
        dsimp only
        by_cases i2 : posForRead ts.length pos < 0
        · rw [if_pos i2, if_pos i2]
          exact ⟨hk, rfl⟩
        · rw [if_neg i2, if_neg i2]
          by_cases i3 : (posForRead ts.length pos).toNat < ts.length
          · rw [if_pos i3, if_pos i3]
            exact ⟨_, h1 a _ ha, .arr _ a _ _ upd_self (by rw [without_upd]; exact soleL_set _ h hc e3 e1 e2), rfl⟩
          · rw [if_neg i3, if_neg i3]
            exact ⟨hk, rfl⟩
    | err _ | panic | diverge => exact ⟨hk, rfl⟩
  | obj _ a n es l ts ha h =>
    have hk : Sole K (some a) (.obj n ts l) := sole_mono h1 (.obj L a n es l ts ha h)
    have hm : M a = none := hd a (by rw [ha]; simp)
    refine ⟨_, h1 a _ ha, ?_⟩
    dsimp only [Cell.plain]
    unfold atLastParam
    cases hp : anyToString q with
    | ok k =>
      exact predicts_mono (fun K' r h => ⟨h.2, h.1⟩) (predicts_key E k (h1 a _ ha) h hc (disj_mono hd (without_extends L a) (extends_refl M)) (without_mono a h1)
        (without_of h2 hm))
    | err _ | panic | diverge => exact ⟨hk, rfl⟩

theorem sole_either {o : Opt} {Q : Known → R Ptr → Prop} {K : Known} {v c : Ptr} {t u : V} {e : Err} {p : Act Ptr} (ht : Hung K v t) (hc : Hung K c u)
    (h1 : (t.uninit || u.uninit) = true → Q K (.err e)) (h2 : t.uninit = false → u.uninit = false → Predicts o Q K p) :
    Predicts o Q K (aEither v c fun b => if b then .ret (.err e) else p) := by
  unfold aEither
  refine predicts_uninit ht ?_
  cases h : t.uninit with
  | true => exact h1 (by rw [h]; rfl)
  | false =>
    simp only [Bool.false_eq_true, if_false]
    refine predicts_uninit hc ?_
    cases h' : u.uninit with
    | true => exact h1 (by rw [h, h']; rfl)
    | false =>
      simp only [Bool.false_eq_true, if_false]
      exact h2 h h'

theorem container_next (next : Param) : (∃ e, hnewContainer next = .err e ∧ newContainer next = .err e) ∨
    ∃ d t, hnewContainer next = .ok d ∧ newContainer next = .ok t ∧ ∀ b, Sole (upd nothing b d) (some b) t := by
  unfold hnewContainer newContainer
  cases anyToString next with
  | ok _ => exact .inr ⟨_, _, rfl, rfl, fun b => .obj _ b _ _ _ _ upd_self (.nil _)⟩
  | err _ | panic | diverge =>
    cases anyToInt next with
    | ok i =>
      dsimp only
      by_cases e : i ≠ 0
      · rw [if_pos e, if_pos e]; exact .inl ⟨_, rfl, rfl⟩
      · rw [if_neg e, if_neg e]; exact .inr ⟨_, _, rfl, rfl, fun b => .arr _ b _ _ upd_self (.nil _)⟩
    | err _ | panic | diverge => exact .inl ⟨_, rfl, rfl⟩

/-- a part of the document is changed, the rest is as before -/
theorem sole_inside {o : Opt} {K L L1 L2 M : Known} {a : Nat} {d : Cell} {q c : Ptr} {x : V × R (List Step)} {p : Act Ptr}
    (ha : L a = some d) (hd : Disj L M) (hL : Extends L K) (hM : Extends M K) (h12 : Disj L1 L2) (e1 : Extends L1 (without L a)) (e2 : Extends L2 (without L a))
    (hp : Predicts o (AfterSet q c x) (both L1 M) p) :
    Predicts o (fun K' r => Same c x.2 r ∧ K' a = some d ∧ ∃ L', Sole L' q x.1 ∧ Disj L' L2 ∧ Extends L' (without K' a) ∧ Extends L2 (without K' a)) K p := by
  have hm : M a = none := hd a (by rw [ha]; simp)
  have hn : ∀ {N : Known}, Extends N (without L a) → N a = none := fun {N} h => by
    cases e : N a with
    | none => rfl
    | some y => have := h a y e; rw [without_self] at this; cases this
  have f1 : Extends L1 K := extends_trans (extends_trans e1 (without_extends L a)) hL
  have f2 : Extends L2 L := extends_trans e2 (without_extends L a)
  refine predicts_mono (fun K' r h => ?_) (predicts_frame hp (both_extends f1 hM))
  obtain ⟨L', ⟨hs, hr⟩, hx, hfr⟩ := h
  obtain ⟨ga, gb⟩ := hfr a (both_none (hn e1) hm) (by rw [hL a d ha]; simp)
  have g2 : ∀ b, L2 b ≠ none → L' b = none ∧ K' b = L2 b := fun b hb => by
    have hK : K b = L2 b := extends_ne (extends_trans f2 hL) hb
    have := hfr b (both_none (disj_symm h12 b hb) (hd b (by rw [extends_ne f2 hb]; exact hb))) (by rw [hK]; exact hb)
    rw [hK] at this
    exact this
  exact ⟨hr, gb.trans (hL a d ha), L', hs, disj_symm fun b hb => (g2 b hb).1, without_of hx ga,
    without_of (fun b y hb => by rw [(g2 b (by rw [hb]; simp)).2, hb]) (hn e2)⟩

/-- a new container is filled, what was there is as before -/
theorem sole_outside {o : Opt} {K L M : Known} {b : Nat} {d : Cell} {c : Ptr} {x : V × R (List Step)} {p : Act Ptr}
    (hb : K b = none) (hd : Disj L M) (hL : Extends L K) (hM : Extends M K)
    (hp : Predicts o (AfterSet (some b) c x) (both (upd nothing b d) M) p) :
    Predicts o (fun K' r => Same c x.2 r ∧ Extends L K' ∧ ∃ L', Sole L' (some b) x.1 ∧ Disj L L' ∧ Extends L' K') (upd K b d) p := by
  have hext : Extends (both (upd nothing b d) M) (upd K b d) := both_extends
    (fun x y h => by
      unfold upd at h ⊢
      split
      · next e => rw [if_pos e] at h; exact h
      · next e => rw [if_neg e] at h; cases h)
    (extends_trans hM (extends_upd d hb))
  refine predicts_mono (fun K' r h => ?_) (predicts_frame hp hext)
  obtain ⟨L', ⟨hs, hr⟩, hx, hfr⟩ := h
  have g : ∀ z, L z ≠ none → L' z = none ∧ K' z = L z := fun z hz => by
    have hK : K z = L z := extends_ne hL hz
    have hne : z ≠ b := fun e => by rw [e, hb] at hK; rw [← e] at hK; exact hz hK.symm
    have hu : upd K b d z = L z := by unfold upd; rw [if_neg hne]; exact hK
    have := hfr z (both_none (by unfold upd; rw [if_neg hne]; rfl) (hd z hz)) (by rw [hu]; exact hz)
    rw [hu] at this
    exact this
  exact ⟨hr, (fun z y hz => by rw [(g z (by rw [hz]; simp)).2, hz]), L', hs, (fun z hz => (g z hz).1), hx⟩

theorem new_disj {K M : Known} {b : Nat} {d : Cell} (hb : K b = none) (hM : Extends M K) : Disj (upd nothing b d) M := fun z hz => by
  by_cases e : z = b
  · cases hm : M z with
    | none => rfl
    | some y => have := hM z y hm; rw [e, hb] at this; cases this
  · unfold upd at hz; rw [if_neg e] at hz; exact absurd rfl hz

theorem sole_whole (E : Env) {o : Opt} {K L M : Known} {v c : Ptr} {t u : V} (q : Param) (ht : Sole L v t) (hc : Sole M c u) (hd : Disj L M) (h1 : Extends L K)
    (h2 : Extends M K) : Predicts o (AfterSet v c (if t.uninit || u.uninit then (t, .err .valueUninitialized) else atLastParam E t u q)) K
      (aEither v c fun b => if b then .ret (.err .valueUninitialized) else aSetLast E v c q) :=
  sole_either (sole_hung (sole_mono h1 ht)) (hung_mono h2 (sole_hung hc)) (fun e => by rw [if_pos e]; exact ⟨sole_mono h1 ht, rfl⟩)
    fun i1 i2 => by rw [if_neg (by rw [i1, i2]; simp)]; exact sole_last E q ht hc hd h1 h2 i1

mutual
theorem sole_set1 (E : Env) {o : Opt} : ∀ (q : Param) {K L M : Known} {v c : Ptr} {t u : V}, Sole L v t → Sole M c u → Disj L M → Extends L K → Extends M K →
    Predicts o (AfterSet v c (setAt1 E t u q)) K (aSetAt1 E v c q)
  | .slice qs, K, L, M, v, c, t, u, ht, hc, hd, h1, h2 => by
    unfold aSetAt1 setAt1
    by_cases e : qs.isEmpty = true
    · rw [if_pos e, if_pos e]
      exact sole_whole E .nil ht hc hd h1 h2
    · rw [if_neg e, if_neg e]
      exact sole_set E qs ht hc hd h1 h2
  | .nil, K, L, M, v, c, t, u, ht, hc, hd, h1, h2 => by unfold aSetAt1 setAt1; exact sole_whole E _ ht hc hd h1 h2
  | .str s, K, L, M, v, c, t, u, ht, hc, hd, h1, h2 => by unfold aSetAt1 setAt1; exact sole_whole E _ ht hc hd h1 h2
  | .int i, K, L, M, v, c, t, u, ht, hc, hd, h1, h2 => by unfold aSetAt1 setAt1; exact sole_whole E _ ht hc hd h1 h2
  | .uint i, K, L, M, v, c, t, u, ht, hc, hd, h1, h2 => by unfold aSetAt1 setAt1; exact sole_whole E _ ht hc hd h1 h2
  | .other, K, L, M, v, c, t, u, ht, hc, hd, h1, h2 => by unfold aSetAt1 setAt1; exact sole_whole E _ ht hc hd h1 h2
theorem sole_set (E : Env) {o : Opt} : ∀ (ps : List Param) {K L M : Known} {v c : Ptr} {t u : V}, Sole L v t → Sole M c u → Disj L M → Extends L K → Extends M K →
    Predicts o (AfterSet v c (setAt E t u ps)) K (aSetAt E v c ps)
  | [], K, L, M, v, c, t, u, ht, hc, hd, h1, h2 => by unfold aSetAt setAt; exact ⟨sole_mono h1 ht, rfl⟩
  | [p], K, L, M, v, c, t, u, ht, hc, hd, h1, h2 => by unfold aSetAt setAt; exact sole_set1 E p ht hc hd h1 h2
  | p :: next :: rest, K, L, M, v, c, t, u, ht, hc, hd, h1, h2 => by
    have ih := fun {K L M : Known} {v c : Ptr} {t u : V} (ht : Sole L v t) (hc : Sole M c u) (hd : Disj L M) (h1 : Extends L K) (h2 : Extends M K) =>
      sole_set E (o := o) (next :: rest) ht hc hd h1 h2
    unfold aSetAt setAt
    dsimp only
    generalize next :: rest = qs at ih ⊢
    by_cases e : p.isSlice = true
    · rw [if_pos e, if_pos e]
      exact ⟨sole_mono h1 ht, rfl⟩
    rw [if_neg e, if_neg e]
    have hk := sole_mono h1 ht
    refine sole_either (sole_hung hk) (hung_mono h2 (sole_hung hc)) (fun e => ?_) fun i1 i2 => ?_
    · rw [if_pos e]; exact ⟨hk, rfl⟩
    rw [if_neg (by rw [i1, i2]; simp)]
    cases ht with
    | nil => cases i1
    | leaf _ a d t ha hl =>
      refine ⟨d, h1 a d ha, ?_⟩
      cases d <;> cases t <;> first | exact hl.elim | exact ⟨hk, rfl⟩
    | arr _ a ps ts ha h =>
      refine ⟨_, h1 a _ ha, ?_⟩
      dsimp only [Cell.plain]
      cases anyToInt p with
      | ok pos =>
        dsimp only
        rw [hungL_length (soleL_hung h)]
        generalize posForRead ts.length pos = i
        by_cases e1 : i < 0
        · rw [if_pos e1, if_pos e1]
          rcases container_next next with ⟨e, g1, g2⟩ | ⟨d, t', g1, g2, g3⟩
          · rw [g1, g2]; exact ⟨hk, rfl⟩
          · rw [g1, g2]
            dsimp only
            intro b hb
            have hn := new_disj (d := d) hb h2
            refine predicts_andThen (fun K' r hq => ?_) (sole_outside hb hd h1 h2 (ih (g3 b) hc hn both_left (both_right hn)))
            obtain ⟨hr, k1, L', k2, k3, k4⟩ := hq
            cases hx : (setAt E t' u qs).2 with
            | ok l =>
              rw [hx] at hr
              cases hr
              have hLa : L' a = none := k3 a (by rw [ha]; simp)
              exact ⟨_, k1 a _ ha, _, k1 a _ ha, .arr _ a _ _ upd_self (by
                rw [without_upd]
                exact soleL_snoc h k2 (disj_mono k3 (without_extends L a) (extends_refl _)) (without_mono a k1) (without_of k4 hLa)), rfl⟩
            | err _ | panic | diverge =>
              rw [hx] at hr
              cases hr
              exact ⟨sole_mono k1 (.arr L a ps ts ha h), rfl⟩
        · rw [if_neg e1, if_neg e1]
          rcases soleL_part i.toNat h with ⟨g1, g2⟩ | ⟨q, w, L1, L2, g1, g2, g3, g4, g5, g6, g7⟩
          · rw [g1, g2]; exact ⟨hk, rfl⟩
          · rw [g1, g2]
            dsimp only
            have hdm : Disj L1 M := disj_mono hd (extends_trans g5 (without_extends L a)) (extends_refl M)
            refine predicts_mono (fun K' r hq => ?_) (sole_inside ha hd h1 h2 g4 g5 g6 (ih g3 hc hdm both_left (both_right hdm)))
            obtain ⟨hr, k1, L', k2, k3, k4, k5⟩ := hq
            refine ⟨.arr _ a _ _ k1 (g7 _ L' _ k2 k3 k4 k5), ?_⟩
            revert hr
            cases (setAt E w u qs).2 <;> exact fun h => h
      | err _ | panic | diverge => exact ⟨hk, rfl⟩
    | obj _ a n es l ts ha h =>
      refine ⟨_, h1 a _ ha, ?_⟩
      dsimp only [Cell.plain]
      cases anyToString p with
      | ok k =>
        dsimp only
        rcases soleE_part k h with ⟨g1, g2⟩ | ⟨q, w, L1, L2, g1, g2, g3, g4, g5, g6, g7⟩
        · rw [g1, g2]
          dsimp only
          rcases container_next next with ⟨e, g1, g2⟩ | ⟨d, t', g1, g2, g3⟩
          · rw [g1, g2]; exact ⟨hk, rfl⟩
          · rw [g1, g2]
            dsimp only
            intro b hb
            have hn := new_disj (d := d) hb h2
            refine predicts_andThen (fun K' r hq => ?_) (sole_outside hb hd h1 h2 (ih (g3 b) hc hn both_left (both_right hn)))
            obtain ⟨hr, k1, L', k2, k3, k4⟩ := hq
            cases hx : (setAt E t' u qs).2 with
            | ok l' =>
              rw [hx] at hr
              cases hr
              have hLa : L' a = none := k3 a (by rw [ha]; simp)
              refine ⟨_, k1 a _ ha, ?_⟩
              dsimp only [Cell.plain]
              refine predicts_andThen (fun K2 r hq => ?_) (predicts_key E k (k1 a _ ha) h k2 (disj_mono k3 (without_extends L a) (extends_refl _)) (without_mono a k1)
                (without_of k4 hLa))
              obtain ⟨rfl, hq⟩ := hq
              exact ⟨hq, rfl⟩
            | err _ | panic | diverge =>
              rw [hx] at hr
              cases hr
              exact ⟨sole_mono k1 (.obj L a n es l ts ha h), rfl⟩
        · rw [g1, g2]
          dsimp only
          have hdm : Disj L1 M := disj_mono hd (extends_trans g5 (without_extends L a)) (extends_refl M)
          refine predicts_mono (fun K' r hq => ?_) (sole_inside ha hd h1 h2 g4 g5 g6 (ih g3 hc hdm both_left (both_right hdm)))
          obtain ⟨hr, k1, L', k2, k3, k4, k5⟩ := hq
          refine ⟨.obj _ a _ _ _ _ k1 (g7 _ L' _ k2 k3 k4 k5), ?_⟩
          revert hr
          cases (setAt E w.v u qs).2 <;> exact fun h => h
      | err _ | panic | diverge => exact ⟨hk, rfl⟩
end

theorem sole_fresh (E : Env) {o : Opt} {K : Known} {p : Ptr} {t : V} (u : V) (ps : List Param) (ht : Sole K p t) :
    Predicts o (fun K' r => ∃ c, AfterSet p c (setAt E t u ps) K' r) K ((aBuild u).onOk fun c => aSetAt E p c ps) := by
  refine predicts_andThen (fun K' r h => ?_) (predicts_besides K (predicts_sole u))
  obtain ⟨L, ⟨c, rfl, hc⟩, h1, h2, h3⟩ := h
  exact predicts_mono (fun _ _ h => ⟨c, h⟩) (sole_set E ps ht hc h3 h2 h1)

theorem sole_sets (E : Env) {o : Opt} : ∀ (l : List (V × List Param)) {K : Known} {p : Ptr} {t : V}, Sole K p t →
    Predicts o (fun K' r => ∃ u, r = .ok u ∧ Sole K' p (setAll E t l)) K (aSets E p l)
  | [], K, p, t, ht => ⟨_, rfl, ht⟩
  | (u, ps) :: l, K, p, t, ht => by
    unfold aSets setAll
    have ih := fun {K : Known} {p : Ptr} {t : V} (h : Sole K p t) => sole_sets E (o := o) l h
    exact predicts_andThen (fun K' r ⟨c, h, _⟩ => ih h) (sole_fresh E u ps ht)

theorem noIndexM_put {k : Bytes} {u : V} (hu : noIndex u = u) : ∀ {ts : List Ent}, noIndexM ts = ts → noIndexM (putKey k u ts) = putKey k u ts
  | [], _ => rfl
  | .mk k' i v :: ts, h => by
    simp only [noIndexM, List.cons.injEq, Ent.mk.injEq, true_and] at h
    unfold putKey
    split
    · simp only [noIndexM, hu, h.2, Ent.key_mk]
    · simp only [noIndexM, h.1, noIndexM_put hu h.2]

theorem noIndexM_found {k : Bytes} {e : Ent} : ∀ {ts : List Ent}, noIndexM ts = ts → lookup k ts = some e → noIndex e.v = e.v
  | .mk k' i v :: ts, h, hl => by
    simp only [noIndexM, List.cons.injEq, Ent.mk.injEq, true_and] at h
    unfold lookup at hl
    split at hl
    · cases hl; exact h.1
    · exact noIndexM_found h.2 hl

theorem noIndex_container {next : Param} {t : V} (h : newContainer next = .ok t) : noIndex t = t := by
  unfold newContainer at h
  split at h
  · cases h; rfl
  · split at h
    · split at h
      · cases h
      · cases h; rfl
    · cases h

theorem noIndex_whole (E : Env) {t u : V} (q : Param) (ht : noIndex t = t) (hu : noIndex u = u) :
    noIndex (if t.uninit || u.uninit then (t, .err .valueUninitialized) else atLastParam E t u q).1 =
      (if t.uninit || u.uninit then (t, .err .valueUninitialized) else atLastParam E t u q).1 := by
  split
  · exact ht
  · exact noIndex_setLast E q ht hu

mutual
theorem noIndex_set1 (E : Env) {u : V} (hu : noIndex u = u) : ∀ (q : Param) {t : V}, noIndex t = t → noIndex (setAt1 E t u q).1 = (setAt1 E t u q).1
  | .slice qs, t, ht => by
    unfold setAt1
    by_cases e : qs.isEmpty = true
    · rw [if_pos e]; exact noIndex_whole E .nil ht hu
    · rw [if_neg e]; exact noIndex_setAt E hu qs ht
  | .nil, t, ht => by unfold setAt1; exact noIndex_whole E _ ht hu
  | .str _, t, ht => by unfold setAt1; exact noIndex_whole E _ ht hu
  | .int _, t, ht => by unfold setAt1; exact noIndex_whole E _ ht hu
  | .uint _, t, ht => by unfold setAt1; exact noIndex_whole E _ ht hu
  | .other, t, ht => by unfold setAt1; exact noIndex_whole E _ ht hu
theorem noIndex_setAt (E : Env) {u : V} (hu : noIndex u = u) : ∀ (ps : List Param) {t : V}, noIndex t = t → noIndex (setAt E t u ps).1 = (setAt E t u ps).1
  | [], t, ht => by unfold setAt; exact ht
  | [p], t, ht => by unfold setAt; exact noIndex_set1 E hu p ht
  | p :: next :: rest, t, ht => by
    have ih := fun {t : V} (h : noIndex t = t) => noIndex_setAt E hu (next :: rest) h
    unfold setAt
    dsimp only
    generalize next :: rest = qs at ih ⊢
    split
    · exact ht
    · split
      · exact ht
      · split
        · next n kvs low _ =>
          have ht' := ht
          simp only [noIndex, V.obj.injEq, true_and] at ht'
          obtain ⟨h1, h2⟩ := ht'
          split
          · next k _ =>
            split
            · next e he =>
              simp only [V.put, noIndex]
              rw [noIndexM_put (ih (noIndexM_found h1 he)) h1, h2]
            · split
              · next ch hc =>
                split
                · subst h2
                  simp only [setKey, noIndex]
                  rw [noIndexM_assign (e := .mk _ _ _) (ih (noIndex_container hc)) h1]
                  rfl
                · exact ht
                · exact ht
                · exact ht
              · exact ht
              · exact ht
          · exact ht
          · exact ht
        · next xs _ =>
          have h1 : noIndexL xs = xs := by simpa [noIndex] using ht
          split
          · next pos _ =>
            split
            · split
              · next ch hc =>
                split
                · simp only [noIndex]
                  rw [noIndexL_append (ih (noIndex_container hc)) h1]
                · exact ht
                · exact ht
                · exact ht
              · exact ht
              · exact ht
            · split
              · next ch hc =>
                simp only [V.put, noIndex]
                rw [noIndexL_set (ih (noIndexL_iff.1 h1 _ (List.mem_of_getElem? hc))) _ h1]
              · exact ht
          · exact ht
          · exact ht
        · exact ht
end

theorem noIndex_setAll (E : Env) : ∀ (l : List (V × List Param)) {t : V}, (∀ x ∈ l, noIndex x.1 = x.1) → noIndex t = t → noIndex (setAll E t l) = setAll E t l
  | [], _, _, ht => ht
  | (u, ps) :: l, t, hl, ht => by
    unfold setAll
    exact noIndex_setAll E l (fun x hx => hl x (List.mem_cons_of_mem _ hx)) (noIndex_setAt E (hl (u, ps) List.mem_cons_self) ps ht)

end JV
