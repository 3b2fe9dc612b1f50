import Verif.Proofs.MessageLoc
import Verif.Proofs.Strict
/-! What the messages about numbers say. -/
namespace JV
open Spec

theorem numStep_dot {pos : Nat} {st st' : NumSt} {b : UInt8} (h : numStep pos st b = .ok (some st')) (hd : st'.dotGot = true) : st.dotGot = true ∨ b = 0x2E := by
  unfold numStep at h
  repeat' split at h
  all_goals simp only [R.pure_eq, R.ok.injEq, Option.some.injEq, reduceCtorEq] at h
  all_goals first | (subst h; simp_all) | simp_all

theorem numLoop_dot {acc s text r : Bytes} {st st' : NumSt} (h : numLoop acc st s = .ok (st', text, r)) (hd : st'.dotGot = true) : st.dotGot = true ∨ 0x2E ∈ s := by
  induction s generalizing acc st with
  | nil => cases h; exact .inl hd
  | cons b t ih =>
    rw [numLoop] at h
    match hs : numStep acc.length st b with
    | .ok none => rw [hs] at h; cases h; exact .inl hd
    | .ok (some st1) =>
      rw [hs] at h
      rcases ih h with h1 | h1
      · rcases numStep_dot hs h1 with h2 | h2
        · exact .inl h2
        · exact .inr (by simp [h2])
      · exact .inr (by simp [h1])
    | .err e => rw [hs] at h; cases h
    | .panic => rw [hs] at h; cases h
    | .diverge => rw [hs] at h; cases h

theorem numStep_float {pos : Nat} {st st' : NumSt} {b : UInt8} (h : numStep pos st b = .ok (some st')) (hd : st'.floated = true) : st.floated = true ∨ ¬ Digit b := by
  by_cases hb : b = 0x65 ∨ b = 0x45 ∨ b = 0x2E
  · right; rcases hb with rfl | rfl | rfl <;> simp [Digit]
  · left
    unfold numStep at h
    repeat' split at h
    all_goals simp only [R.pure_eq, R.ok.injEq, Option.some.injEq, reduceCtorEq] at h
    all_goals first | (subst h; simp_all) | simp_all

theorem numLoop_float {acc s text : Bytes} {st st' : NumSt} (h : numLoop acc st s = .ok (st', text, [])) (hd : st'.floated = true) : st.floated = true ∨ ∃ c ∈ s, ¬ Digit c := by
  induction s generalizing acc st with
  | nil => cases h; exact .inl hd
  | cons b t ih =>
    rw [numLoop] at h
    match hs : numStep acc.length st b with
    | .ok none => rw [hs] at h; cases h
    | .ok (some st1) =>
      rw [hs] at h
      rcases ih h with h1 | ⟨c, h1, h2⟩
      · rcases numStep_float hs h1 with h2 | h2
        · exact .inl h2
        · exact .inr ⟨b, by simp, h2⟩
      · exact .inr ⟨c, by simp [h1], h2⟩
    | .err e => rw [hs] at h; cases h
    | .panic => rw [hs] at h; cases h
    | .diverge => rw [hs] at h; cases h

theorem run_pos {a r c t : Bytes} {b : UInt8} (h : a ++ r = c ++ b :: t) (hc : ∀ x ∈ c, NumChar x) (hb : NumChar b) (hr : NumEnd r) :
    a[c.length]? = some b ∧ c.length < a.length := by
  rcases List.append_eq_append_iff.1 h with ⟨d, h1, h2⟩ | ⟨d, h1, h2⟩
  · exfalso
    rcases d with _ | ⟨x, d⟩
    · exact hr b t (by simpa using h2) hb
    · exact hr x (d ++ b :: t) h2 (hc x (by rw [h1]; simp))
  · rcases d with _ | ⟨x, d⟩
    · exact absurd hb (hr b t (by simpa using h2.symm))
    · simp only [List.cons_append, List.cons.injEq] at h2
      obtain ⟨rfl, -⟩ := h2
      rw [h1]
      simp

theorem digit_cons {c : UInt8} {t : Bytes} (h : Digits (c :: t)) : Digits t := fun x hx => h x (by simp [hx])

theorem digits_ge {c : UInt8} {t : Bytes} (h : Digits (c :: t)) (hc : c ≠ 0x30) : 10 ^ t.length ≤ decVal (c :: t) := by
  have h1 : IntPart (c :: t) := by
    have hd := h c (by simp)
    have hn := mt toNat_inj8.2 hc
    unfold Digit at hd
    simp at hn
    exact .inr ⟨c, t, rfl, by omega, by omega, digit_cons h⟩
  rcases intPart_ge h1 with h2 | h2
  · simp only [List.cons.injEq] at h2; exact absurd h2.1 hc
  · simpa using h2

theorem too_large {tok : Bytes} {n : Nat} (hn : n = decVal tok) (hd : Digits tok) (hz : ZerosOK tok) (hl : 20 ≤ tok.length) (h20 : tok.length = 20 → n % 2 ^ 64 < 10 ^ 19)
    (h0 : ∀ t, tok = 0x30 :: t → n % 2 ^ 64 = 0) : 2 ^ 64 ≤ decVal tok := by
  rcases tok with _ | ⟨c, t⟩
  · simp at hl
  · by_cases hc : c = 0x30
    · subst hc
      have h1 := h0 t rfl
      rcases t with _ | ⟨c2, t⟩
      · simp at hl
      · have hc2 := ZerosOK_head hz
        have h2 : decVal (0x30 :: c2 :: t) = decVal (c2 :: t) := by simp [decVal]
        have h3 := digits_head_pos (digit_cons hd) hc2
        rw [hn, h2] at h1
        rw [h2]
        omega
    · have h1 := digits_ge hd hc
      have hlen : (c :: t).length = t.length + 1 := rfl
      by_cases h : t.length = 19
      · have h2 := h20 (by omega)
        rw [h] at h1
        omega
      · have : 10 ^ 20 ≤ 10 ^ t.length := Nat.pow_le_pow_right (by omega) (by omega)
        omega

theorem parseNumberM_err {E : Env} {p : Nat} {c : UInt8} {t : Bytes} {m : Msg} (hc : isNumStart c = true) (h : parseNumberM E p (c :: t) = .err m) :
    MsgHolds (NumTok E) p (c :: t) m ∧ ∀ q, fault m = some q → ∃ d x u, c :: t = d ++ x :: u ∧ q = p + d.length ∧ ∀ u', parseNumberM E p (d ++ x :: u') = .err m := by
  have hf := parseNumberM_forget E p (c :: t)
  rw [h] at hf
  obtain ⟨-, a, r, ht, ha, hr, hno⟩ := (parseNumber_err_iff hc).1 hf.symm
  have hall : ∀ x ∈ c :: a, NumChar x := fun x hx => (List.mem_cons.1 hx).elim (fun h => h ▸ numStart_char ((numStart_iff _).1 hc)) (ha x)
  have whole : ∀ k, NumSays k (c :: a) → MsgHolds (NumTok E) p (c :: t) (.num k p) := fun k hk =>
    ⟨c, a, r, by rw [ht]; rfl, (numStart_iff _).1 hc, ha, hr, hno, .inl ⟨rfl, hk⟩⟩
  unfold parseNumberM at h
  rcases bindM_err h with h1 | ⟨⟨st, text, rest⟩, h1, hx⟩
  · obtain ⟨d, b, u, g1, rfl, g2, g3, g4, g5⟩ := numLoopM_err h1
    obtain ⟨k1, k2⟩ := run_pos (a := c :: a) (r := r) (by rw [← g1, ht]; rfl) g3 g4 hr
    refine ⟨⟨c, a, r, by rw [ht]; rfl, (numStart_iff _).1 hc, ha, hr, hno, .inr ⟨b, by simp at k2 ⊢; omega, by simp, ?_, g2⟩⟩, fun q hq => ?_⟩
    · rw [show p + ([] : Bytes).length + d.length - p = d.length by simp]; exact k1
    · refine ⟨d, b, u, g1, ?_, fun u' => ?_⟩
      · unfold fault at hq
        split at hq <;> simp_all
      · unfold parseNumberM
        rw [g5 u']; rfl
  · clear h
    obtain ⟨hend, d, hd, hs, h2⟩ := numLoopM_ok h1
    rw [List.nil_append] at hd
    subst hd
    have hl : numLoop [] {} (c :: t) = .ok (st, text, rest) := by
      have := numLoopM_forget p [] {} (c :: t)
      rw [h1] at this
      exact this.symm
    have hl0 : numLoop [] {} text = .ok (st, text, []) := by
      have h3 := h2 p [] (fun _ _ h => by cases h)
      have := numLoopM_forget p [] {} (text ++ [])
      rw [h3] at this
      simpa using this.symm
    obtain ⟨g1, u, -, g3, -⟩ := numLoop_split hl
    have htext : text = c :: a := by
      refine numRun_unique (x := rest) (y := r) ?_ (numLoop_chars hl0) hall g1 hr
      rw [← hs, ht]; rfl
    subst htext
    have nofault : ∀ {k q}, (k = .afterDot ∨ k = .leadingZero ∨ k = .format ∨ (∃ x, k = .float x) ∨ k = .tooLarge ∨ k = .absTooLarge) →
        fault (.num k p) = some q → False := by
      rintro k q hk hq
      rcases hk with rfl | rfl | rfl | ⟨x, rfl⟩ | rfl | rfl <;> cases hq
    dsimp only at hx
    split at hx
    · rename_i hfl
      split at hx
      · rename_i hdot
        cases hx
        refine ⟨whole _ ?_, fun q hq => (nofault (by simp) hq).elim⟩
        rcases numLoop_dot hl0 (by simp_all) with h3 | h3
        · cases h3
        · exact h3
      · rcases bindM_err hx with h3 | ⟨n, h3, h4⟩
        · obtain ⟨rfl, e, he⟩ := withMsg_err h3
          refine ⟨whole _ ⟨rfl, ?_⟩, fun q hq => (nofault (by simp) hq).elim⟩
          rcases numLoop_float hl0 hfl with h3 | h3
          · cases h3
          · exact h3
        · cases h4
    · rename_i hfl
      have hfl : st.floated = false := by simpa using hfl
      obtain ⟨-, hshape⟩ := numLoop_int_shape hl0 hfl (fun h => by cases h)
      rw [rd_zero] at hx
      simp only [R.withMsg, RM.bind_ok] at hx
      split at hx
      · rename_i hz
        cases hx
        refine ⟨whole _ ⟨a, by rw [hz.2], ?_⟩, fun q hq => (nofault (by simp) hq).elim⟩
        rcases hshape with h3 | ⟨-, ds, h3, h4⟩
        · exact digit_cons h3
        · simp only [List.cons.injEq] at h3
          rw [h3.1] at hz
          exact absurd hz.2 (by decide)
      · rename_i hz
        split at hx
        · rename_i hm
          cases hx
          have ha0 : a = [] := by simpa using hm.1
          subst ha0
          refine ⟨whole _ ?_, fun q hq => (nofault (by simp) hq).elim⟩
          rcases (numStart_iff c).1 hc with h3 | h3
          · exact absurd ((numChar_facts c).1.2 h3) hm.2
          · show [c] = _; rw [h3]
        · rename_i hm
          rcases bindM_err hx with h3 | ⟨n, h3, h4⟩
          · have h3 : (intResult E st.negative (c :: a).length st.integer).withMsg (.num (if st.negative then .absTooLarge else .tooLarge) p) = .err m := h3
            obtain ⟨rfl, e, he⟩ := withMsg_err h3
            refine ⟨whole _ ?_, fun q hq => (nofault (by split <;> simp) hq).elim⟩
            rcases hshape with h5 | ⟨-, ds, h5, h6⟩
            · have hzo : ZerosOK (c :: a) := Classical.byContradiction fun hno => by
                have := (int_scan false (c :: a) h5).2 hno
                rw [show sign false ++ (c :: a) = c :: a from rfl, hl0] at this
                cases this
              have hst := (int_scan false (c :: a) h5).1 hzo
              rw [show sign false ++ (c :: a) = c :: a from rfl, hl0] at hst
              simp only [R.ok.injEq, Prod.mk.injEq, and_true] at hst
              subst hst
              simp only [Bool.false_eq_true, if_false] at he ⊢
              rw [intResult_spec] at he
              have hbad : ¬ ((c :: a).length ≤ 20 ∧ ((c :: a).length = 20 → 10 ^ 19 ≤ decVal (c :: a) % 2 ^ 64)) := fun hg => by
                rw [if_pos (by simpa using hg)] at he; cases he
              · have hzz : ¬ (decVal (c :: a) % 2 ^ 64 ≠ 0 ∧ c = 0x30) := fun h => hz ⟨(ofNat_gt_zero _).2 h.1, h.2⟩
                refine ⟨h5, too_large rfl h5 hzo ?_ ?_ ?_⟩
                · apply Classical.byContradiction; intro hlt; exact hbad ⟨by omega, by omega⟩
                · intro h20; apply Classical.byContradiction; intro hge; exact hbad ⟨by omega, fun _ => by omega⟩
                · intro t ht; simp only [List.cons.injEq] at ht
                  apply Classical.byContradiction; intro hne; exact hzz ⟨hne, ht.1⟩
            · simp only [List.cons.injEq] at h5
              obtain ⟨rfl, rfl⟩ := h5
              have hzo : ZerosOK a := Classical.byContradiction fun hno => by
                have := (int_scan true a h6).2 hno
                rw [show sign true ++ a = 0x2D :: a from rfl, hl0] at this
                cases this
              have hst := (int_scan true a h6).1 hzo
              rw [show sign true ++ a = 0x2D :: a from rfl, hl0] at hst
              simp only [R.ok.injEq, Prod.mk.injEq, and_true] at hst
              subst hst
              simp only [if_true] at he ⊢
              rw [intResult_spec] at he
              have hbad : ¬ (a.length + 1 ≤ 20 ∧ (a.length + 1 = 20 → decVal a % 2 ^ 64 ≤ 2 ^ 63)) := fun hg => by
                rw [if_pos (by simpa using hg)] at he; cases he
              · refine ⟨a, rfl, h6, ?_⟩
                have hlen : 19 ≤ a.length := by apply Classical.byContradiction; intro hlt; exact hbad ⟨by omega, by omega⟩
                by_cases h19 : a.length = 19
                · left
                  have := decVal_le a h6
                  rw [h19] at this
                  apply Classical.byContradiction; intro hge
                  exact hbad ⟨by omega, fun _ => by rw [Nat.mod_eq_of_lt (by omega)]; omega⟩
                · rcases a with _ | ⟨x, a⟩
                  · simp at hlen
                  · by_cases hx : x = 0x30
                    · exact .inr ⟨by omega, a, by rw [hx]⟩
                    · left
                      have h7 := digits_ge h6 hx
                      have hl2 : (x :: a).length = a.length + 1 := rfl
                      have : 10 ^ 19 ≤ 10 ^ a.length := Nat.pow_le_pow_right (by omega) (by omega)
                      omega
          · cases h4

end JV
