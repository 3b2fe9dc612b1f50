import Verif.Proofs.MessageLoop
/-! The messages of the loops. -/
namespace JV
open Spec

/-- the text `pre` at `p0` right before position `p` holds the key that waits for its value, if there is one -/
def Pend (σ : LSt) (p p0 : Nat) (pre : Bytes) : Prop :=
  p = p0 + pre.length ∧ match σ with
    | .inl _ => pre = []
    | .inr (st, ks) => (st.key = none ∧ st.colon = false ∧ pre = []) ∨
      ∃ k body, st.key = some k ∧ ks = p0 + 1 ∧ LStr body k ∧
        (st.colon = false ∧ pre = 0x22 :: body ++ [0x22] ∨ st.colon = true ∧ ∃ b1, Blank b1 ∧ pre = 0x22 :: body ++ 0x22 :: b1 ++ [0x3A])

theorem isScal_iff (c : UInt8) : (c = 0x7B ∨ c = 0x5B ∨ isScal c = true) ↔ ValStart c := by
  rw [← valStart_cases]
  unfold isScal
  simp only [Bool.or_eq_true, decide_eq_true_eq]
  grind

theorem pend_new {st : OSt} {ks q : Nat} (h1 : st.key = none) (h2 : st.colon = false) : Pend (.inr (st, ks)) q q [] :=
  ⟨rfl, .inl ⟨h1, h2, rfl⟩⟩

/-- one step of a loop -/
def ActFacts (N : Bytes → Prop) (p p0 : Nat) (pre b : Bytes) (c : UInt8) : LoopAct → Prop
  | .done _ => True
  | .stop m => (∀ t, Says N p0 (pre ++ (b ++ c :: t)) m) ∧ (∀ q, fault m = some q → q = p + b.length) ∧ ∀ n q, viable n m = some q → q = p + b.length
  | .skip σ => ∃ x p0' pre', pre ++ b ++ [c] = x ++ pre' ∧ p0' = p0 + x.length ∧ Pend σ (p + b.length + 1) p0' pre'
  | .sub σ0 K => Pend σ0 (p + b.length + 1) (p + b.length + 1) [] ∧ ∀ v q, Pend (K v) q q []
  | .scal K => ∀ v q, Pend (K v) q q []
  | .key K => pre = [] ∧ c = 0x22 ∧ ∀ body k, LStr body k → Pend (K k) (p + b.length + 1 + body.length + 1) (p + b.length) (0x22 :: body ++ [0x22])

theorem act_facts {N : Bytes → Prop} {p p0 : Nat} {pre b : Bytes} {c : UInt8} {σ : LSt} (hp : Pend σ p p0 pre) (hb : Blank b) (hc : isBlank c = false) :
    ActFacts N p p0 pre b c (act (p + b.length) c σ) := by
  obtain ⟨h0, hp⟩ := hp
  have bad : ¬ (c = 0x7B ∨ c = 0x5B ∨ isScal c = true) → ActFacts N p p0 pre b c (.stop (.badChar c (p + b.length))) := fun hn => by
    refine ⟨fun t => ⟨pre ++ b, c :: t, by simp, ?_, notBlank_one.2 hc, fun h => hn ((isScal_iff c).2 h), t, rfl⟩, (fun q hq => by cases hq; rfl), fun n q hq => by cases hq; rfl⟩
    rw [List.length_append]; omega
  rcases σ with acc | ⟨st, ks⟩
  · dsimp only at hp
    subst hp
    have hp0 : p = p0 := h0
    subst hp0
    unfold act
    dsimp only
    split
    · trivial
    · split
      · exact ⟨b ++ [c], _, [], by simp, rfl, by simp [Nat.add_assoc], rfl⟩
      · split
        · exact ⟨pend_new rfl rfl, fun v q => ⟨rfl, rfl⟩⟩
        · split
          · exact ⟨⟨rfl, rfl⟩, fun v q => ⟨rfl, rfl⟩⟩
          · split
            · exact fun v q => ⟨rfl, rfl⟩
            · rename_i h7 h5 hs
              exact bad (fun h => by rcases h with h | h | h <;> contradiction)
  · dsimp only at hp
    unfold act
    dsimp only
    rcases hp with ⟨hk, hcol, rfl⟩ | ⟨k, body, hk, hks, hL, hpre⟩
    · have hp0 : p = p0 := h0
      subst hp0
      rw [hk]
      dsimp only
      have nokey : (c = 0x3A ∨ ValStart c ∧ c ≠ 0x22) → ActFacts N p p [] b c (.stop (.noKey (p + b.length))) := fun hv =>
        ⟨fun t => ⟨b, c :: t, by simp, rfl, c, t, rfl, hv⟩, (fun q hq => by cases hq; rfl), fun n q hq => by cases hq; rfl⟩
      split
      · trivial
      · split
        · exact ⟨b ++ [c], _, [], by simp, rfl, by simp [Nat.add_assoc], .inl ⟨hk, hcol, rfl⟩⟩
        · split
          · rename_i h3a
            rw [hcol]
            exact nokey (.inl h3a)
          · split
            · rename_i h22
              refine ⟨rfl, h22, fun body k hL => ⟨by simp; omega, .inr ⟨k, body, rfl, rfl, hL, .inl ⟨hcol, rfl⟩⟩⟩⟩
            · rename_i h22
              split
              · rename_i hv
                exact nokey (.inr ⟨(isScal_iff c).1 hv, h22⟩)
              · rename_i hv
                exact bad hv
    · rw [hk]
      dsimp only
      have noval : (c = 0x7D ∨ c = 0x2C ∨ c = 0x22 ∧ st.colon = false) → ActFacts N p p0 pre b c (.stop (.noValue k ks)) := fun hv => by
        refine ⟨fun t => ?_, (fun q hq => by cases hq), fun n q hq => by cases hq⟩
        refine says_here ⟨hks, ?_⟩
        rcases hpre with ⟨hcol, rfl⟩ | ⟨hcol, b1, hb1, rfl⟩
        · exact ⟨body, b, c, t, hL, hb, .inl ⟨by simp, by rcases hv with h | h | h <;> simp [h]⟩⟩
        · refine ⟨body, b1, c, t, hL, hb1, .inr ⟨b, hb, by simp, ?_⟩⟩
          rcases hv with h | h | h
          · exact .inr h
          · exact .inl h
          · rw [hcol] at h; cases h.2
      split
      · rename_i h
        exact noval (by rcases h with h | h <;> simp [h])
      · rename_i h1
        split
        · rename_i h3a
          split
          · rename_i hcol
            rcases hpre with ⟨hcol', rfl⟩ | ⟨-, b1, hb1, rfl⟩
            · rw [hcol] at hcol'; cases hcol'
            · exact ⟨fun t => says_here ⟨hks, body, k, b1, b, t, hL, hb1, hb, by simp [h3a]⟩, (fun q hq => by cases hq), fun n q hq => by cases hq⟩
          · rename_i hcol
            rcases hpre with ⟨hcol', rfl⟩ | ⟨hcol', -⟩
            · refine ⟨[], p0, 0x22 :: body ++ 0x22 :: b ++ [0x3A], by simp [h3a], rfl, ?_, .inr ⟨k, body, rfl, hks, hL, .inr ⟨rfl, b, hb, rfl⟩⟩⟩
              rw [h0]; simp; omega
            · exact absurd hcol' hcol
        · split
          · rename_i hv
            exact bad hv
          · rename_i hv
            have hv : ValStart c := (isScal_iff c).1 (Classical.byContradiction hv)
            split
            · rename_i hcol
              have hcol : st.colon = false := by simpa using hcol
              by_cases h22 : c = 0x22
              · rw [if_pos h22]; exact noval (.inr (.inr ⟨h22, hcol⟩))
              · rw [if_neg h22]
                refine ⟨fun t => ⟨pre ++ b, c :: t, by simp, ?_, c, t, rfl, hv, h22⟩, (fun q hq => by cases hq; rfl), fun n q hq => by cases hq; rfl⟩
                rw [List.length_append]; omega
            · split
              · exact ⟨pend_new rfl rfl, fun v q => pend_new rfl rfl⟩
              · split
                · exact ⟨⟨rfl, rfl⟩, fun v q => pend_new rfl rfl⟩
                · exact fun v q => pend_new rfl rfl

theorem strLoopM_body {f p q : Nat} {s k r : Bytes} (h : strLoopM f p s [] = .ok (k, q, r)) :
    ∃ body, LStr body k ∧ s = body ++ 0x22 :: r ∧ q = p + body.length + 1 := by
  have hf := strLoopM_forget f p s []
  rw [h] at hf
  obtain ⟨body, dd, hs, hd, hL⟩ := strLoop_sound hf.symm
  rw [List.nil_append] at hd
  subst hd
  obtain ⟨c, -, g1, g2, -⟩ := strLoopM_ok h
  refine ⟨body, hL, hs, ?_⟩
  have : c = body ++ [0x22] := by
    rw [hs] at g1
    have : body ++ [0x22] ++ r = c ++ r := by simpa using g1
    exact (List.append_cancel_right this).symm
  rw [g2, this]; simp; omega

theorem loopS_err {E : Env} {f p p0 : Nat} {pre s : Bytes} {σ : LSt} {m : Msg} (hp : Pend σ p p0 pre) (h : loopS E f p s σ = .err m) :
    Says (NumTok E) p0 (pre ++ s) m ∧ Local (fun s => loopS E f p s σ) p s m := by
  induction f generalizing p p0 pre s σ m with
  | zero => rcases σ with acc | ⟨st, ks⟩ <;> simp [loopS, arrLoopM, objLoopM] at h
  | succ f ih =>
    rcases blank_cases s with hb | ⟨b, c, t, rfl, hb, hc⟩
    · rw [loopS_nil E f p hb] at h
      cases h
      rcases σ with acc | ⟨st, ks⟩
      · exact ⟨says_here (m := .noBracket) trivial, local_none rfl⟩
      · exact ⟨says_here (m := .noBrace) trivial, local_none rfl⟩
    rw [loopS_cons E f p hb hc] at h
    have facts := act_facts (N := NumTok E) hp hb hc
    have hp0 := hp.1
    -- from the tail of the text to the text
    have loc : (∀ q, fault m = some q → ∃ d x u, c :: t = d ++ x :: u ∧ q = p + b.length + d.length ∧
        ∀ u', ∃ t', c :: t' = d ++ x :: u' ∧ runAct E f (p + b.length) c t' (act (p + b.length) c σ) = .err m) →
        Local (fun s => loopS E (f + 1) p s σ) p (b ++ c :: t) m := fun g q hq => by
      obtain ⟨d, x, u, h1, h2, h3⟩ := g q hq
      refine ⟨b ++ d, x, u, by rw [h1]; simp, by rw [h2]; simp; omega, fun u' => ?_⟩
      obtain ⟨t', h4, h5⟩ := h3 u'
      show loopS E (f + 1) p (b ++ d ++ x :: u') σ = .err m
      rw [List.append_assoc, ← h4, loopS_cons E f p hb hc, h5]
    have say : ∀ {r : Bytes} {x : Bytes} {q : Nat}, c :: t = x ++ r → q = p + b.length + x.length → Says (NumTok E) q r m → Says (NumTok E) p0 (pre ++ (b ++ c :: t)) m := by
      intro r x q h1 h2 h3
      rw [h1, show pre ++ (b ++ (x ++ r)) = (pre ++ b ++ x) ++ r by simp]
      exact says_app' (by rw [h2, hp0]; simp; omega) h3
    cases ha : act (p + b.length) c σ with
    | done w => rw [ha] at h; cases h
    | stop m' =>
      rw [ha] at h facts
      cases h
      refine ⟨facts.1 t, loc fun q hq => ⟨[], c, t, rfl, facts.2.1 q hq, fun u' => ⟨u', rfl, by rw [ha]; rfl⟩⟩⟩
    | skip σ' =>
      rw [ha] at h facts
      obtain ⟨x, p0', pre', g1, g2, g3⟩ := facts
      obtain ⟨k1, k2⟩ := ih g3 h
      refine ⟨?_, loc fun q hq => ?_⟩
      · have : pre ++ (b ++ c :: t) = x ++ (pre' ++ t) := by rw [← List.append_assoc x, ← g1]; simp
        rw [this]
        exact says_app' g2 k1
      · obtain ⟨d, y, u, rfl, l2, l3⟩ := k2 q hq
        exact ⟨c :: d, y, u, rfl, by rw [l2]; simp; omega, fun u' => ⟨d ++ y :: u', rfl, by rw [ha]; exact l3 u'⟩⟩
    | sub σ0 K =>
      rw [ha] at h facts
      obtain ⟨g1, g2⟩ := facts
      rcases bindM_err h with h1 | ⟨⟨v1, p1, t1⟩, h1, h2⟩
      · obtain ⟨k1, k2⟩ := ih g1 h1
        refine ⟨say (x := [c]) (r := t) rfl rfl k1, loc fun q hq => ?_⟩
        obtain ⟨d, y, u, rfl, l2, l3⟩ := k2 q hq
        refine ⟨c :: d, y, u, rfl, by rw [l2]; simp; omega, fun u' => ⟨d ++ y :: u', rfl, ?_⟩⟩
        have := l3 u'
        dsimp only at this
        rw [ha]
        simp only [runAct, this, RM.bind_err]
      · obtain ⟨d1, -, rfl, e3, e4⟩ := loopS_ok h1
        obtain ⟨k1, k2⟩ := ih (g2 v1 p1) h2
        refine ⟨say (x := c :: d1) (r := t1) rfl (by rw [e3]; simp; omega) k1, loc fun q hq => ?_⟩
        obtain ⟨d, y, u, rfl, l2, l3⟩ := k2 q hq
        refine ⟨c :: (d1 ++ d), y, u, by simp, by rw [l2, e3]; simp; omega, fun u' => ⟨d1 ++ (d ++ y :: u'), by simp, ?_⟩⟩
        have := e4 (d ++ y :: u')
        dsimp only at this
        rw [ha]
        simp only [runAct, this, RM.bind_ok]
        exact l3 u'
    | scal K =>
      rw [ha] at h facts
      rcases bindM_err h with h1 | ⟨x, h1, h2⟩
      · obtain ⟨k1, k2⟩ := parseScalarM_err h1
        refine ⟨say (x := []) (r := c :: t) rfl rfl k1, loc fun q hq => ?_⟩
        obtain ⟨d, y, u, l1, l2, l3⟩ := k2 q hq
        refine ⟨d, y, u, l1, l2, fun u' => ?_⟩
        obtain ⟨t', l4, l5⟩ := l3 u'
        refine ⟨t', l4, ?_⟩
        rw [ha]
        simp only [runAct, l5, RM.bind_err]
      · rcases x with _ | ⟨v1, p1, t1⟩
        · exfalso
          have hns : c = 0x5B ∨ c = 0x7B ∨ ¬ ValStart c := (parseScalarM_none h1).1
          have hsc : isScal c = true ∧ c ≠ 0x5B ∧ c ≠ 0x7B := by
            rcases σ with acc | ⟨st, ks⟩
            · unfold act at ha; dsimp only at ha; grind
            · unfold act at ha; dsimp only at ha
              cases hk : st.key <;> rw [hk] at ha <;> dsimp only at ha <;> grind
          rcases hns with h | h | h
          · exact hsc.2.1 h
          · exact hsc.2.2 h
          · exact h ((isScal_iff c).1 (.inr (.inr hsc.1)))
        · obtain ⟨e2, d1, rfl, e3, e4⟩ := parseScalarM_ok h1
          obtain ⟨k1, k2⟩ := ih (facts v1 p1) h2
          refine ⟨say (x := c :: d1) (r := t1) rfl (by rw [e3]; simp; omega) k1, loc fun q hq => ?_⟩
          obtain ⟨d, y, u, rfl, l2, l3⟩ := k2 q hq
          refine ⟨c :: (d1 ++ d), y, u, by simp, by rw [l2, e3]; simp; omega, fun u' => ⟨d1 ++ (d ++ y :: u'), by simp, ?_⟩⟩
          have := e4 (d ++ y :: u') (fun hn => by
            have := numEnd_head (d := d ++ [y]) (r := u) (r' := u') (by simp) (by simpa using e2 hn)
            simpa using this)
          rw [ha]
          simp only [runAct, this, RM.bind_ok]
          exact l3 u'
    | key K =>
      rw [ha] at h facts
      obtain ⟨rfl, rfl, g2⟩ := facts
      rcases bindM_err h with h1 | ⟨⟨v1, p1, t1⟩, h1, h2⟩
      · obtain ⟨k1, k2⟩ := strLoopM_err h1 (N := NumTok E)
        refine ⟨say (x := [0x22]) (r := t) rfl rfl k1, loc fun q hq => ?_⟩
        obtain ⟨d, y, u, rfl, l2, l3⟩ := k2 q hq
        refine ⟨0x22 :: d, y, u, rfl, by rw [l2]; simp; omega, fun u' => ⟨d ++ y :: u', rfl, ?_⟩⟩
        have := l3 u'
        dsimp only at this
        rw [ha]
        simp only [runAct, this, RM.bind_err]
      · obtain ⟨body, hL, rfl, e3⟩ := strLoopM_body h1
        obtain ⟨k1, k2⟩ := ih (by rw [e3]; exact g2 body v1 hL) h2
        refine ⟨say (x := []) rfl rfl (by simpa using k1), loc fun q hq => ?_⟩
        obtain ⟨d, y, u, rfl, l2, l3⟩ := k2 q hq
        refine ⟨0x22 :: (body ++ 0x22 :: d), y, u, by simp, by rw [l2, e3]; simp; omega, fun u' => ⟨body ++ 0x22 :: (d ++ y :: u'), by simp, ?_⟩⟩
        have e4 : strLoopM (f + 1) (p + b.length + 1) (body ++ 0x22 :: (d ++ y :: u')) [] = .ok (v1, p1, d ++ y :: u') := by
          obtain ⟨c', -, i1, i2, i3⟩ := strLoopM_ok h1
          have : c' = body ++ [0x22] := by
            have : body ++ [0x22] ++ (d ++ y :: u) = c' ++ (d ++ y :: u) := by simpa using i1
            exact (List.append_cancel_right this).symm
          have i4 := i3 (d ++ y :: u')
          rw [this] at i4
          simpa using i4
        rw [ha]
        simp only [runAct, e4, RM.bind_ok]
        exact l3 u'

end JV
