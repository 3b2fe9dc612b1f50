import Verif.Model.LeftBuf
import Verif.Proofs.LexStr
import Verif.Proofs.InPlace
/-! The buffer after a parse, whatever its result. -/
namespace JV
open Spec

/-! ### after a success it is the returned one -/

theorem strLeft_ok (f : Nat) (it it' : Bytes) (i se se' e : Nat) (h : strLoopB f it i se = .ok (it', se', e)) : strLeft f it i se = it' := by
  induction f generalizing it i se with
  | zero => simp [strLoopB] at h
  | succ f ih =>
    simp only [strLoopB, strLeft] at h ⊢
    split at h
    · rename_i hlt
      rw [if_pos hlt]
      match hs : strStepB it i se with
      | .ok none => rw [hs] at h; simp at h; simpa using h.1
      | .ok (some (a, b, c)) => rw [hs] at h; simp only [R.bind_ok] at h; exact ih a b c h
      | .err _ => rw [hs] at h; simp at h
      | .panic => rw [hs] at h; simp at h
      | .diverge => rw [hs] at h; simp at h
    · simp at h

theorem scalarLeft_ok {E : Env} {f : Nat} {it it' : Bytes} {o e : Nat} {c : UInt8} {v : PV} (h : parseScalarB E f it o c = .ok (some (it', v, e))) :
    scalarLeft f it o c = it' := by
  unfold parseScalarB at h
  unfold scalarLeft
  split at h
  · rename_i h1
    rw [if_neg (by intro hc; subst hc; revert h1; decide)]
    cases hp : parseNumberB E it o <;> rw [hp] at h <;> simp at h
    exact h.1
  · split at h
    · rename_i h2
      rw [if_pos h2]
      unfold parseStrB at h
      cases hp : strLoopB f it (o + 1) (o + 1) with
      | ok x =>
        obtain ⟨a, b, c⟩ := x
        rw [hp] at h
        simp only [R.bind_ok] at h
        cases hs : slice a (o + 1) b <;> rw [hs] at h <;> simp at h
        rw [strLeft_ok _ _ _ _ _ _ _ hp, h.1]
      | err _ => rw [hp] at h; simp at h
      | panic => rw [hp] at h; simp at h
      | diverge => rw [hp] at h; simp at h
    · rename_i h2
      rw [if_neg h2]
      split at h
      · cases hp : parseTrueB it o <;> rw [hp] at h <;> simp at h
        exact h.1
      · split at h
        · cases hp : parseFalseB it o <;> rw [hp] at h <;> simp at h
          exact h.1
        · split at h
          · cases hp : parseNullB it o <;> rw [hp] at h <;> simp at h
            exact h.1
          · simp at h

theorem bind_inv {α β : Type} {x : R α} {g : α → R β} {b : β} (h : (x >>= g) = .ok b) : ∃ a, x = .ok a ∧ g a = .ok b := by
  cases x with
  | ok a => exact ⟨a, rfl, h⟩
  | err e => simp at h
  | panic => simp at h
  | diverge => simp at h

theorem setMemberB_keys {it : Bytes} {st st' : ObjSt} {s e : Nat} {v : PV} (h : setMemberB it st s e v = .ok st') : st'.key = none ∧ st'.colon = false := by
  unfold setMemberB at h
  obtain ⟨_, _, h⟩ := bind_inv h
  simp only [R.pure_eq, R.ok.injEq] at h
  subst h
  exact ⟨rfl, rfl⟩

theorem loops_left_ok (E : Env) (f : Nat) :
    (∀ it o acc it' v e, arrLoopB E f it o acc = .ok (it', v, e) → arrLeft E f it o = it') ∧
    (∀ it o st it' v e, objLoopB E f it o st = .ok (it', v, e) → objLeft E f it o st.key.isSome st.colon = it') := by
  induction f with
  | zero => exact ⟨fun _ _ _ _ _ _ h => by simp [arrLoopB] at h, fun _ _ _ _ _ _ h => by simp [objLoopB] at h⟩
  | succ f ih =>
    obtain ⟨iha, iho⟩ := ih
    constructor
    · intro it o acc it' v e h
      simp only [arrLoopB, arrLeft] at h ⊢
      split at h
      · rename_i hlt
        rw [if_pos hlt]
        obtain ⟨⟨o1, r⟩, h1, h⟩ := bind_inv h
        rw [h1]
        dsimp only at h
        split at h
        · simp at h
        · rename_i hr
          simp only [Bool.not_eq_true] at hr
          subst hr
          obtain ⟨c, h2, h⟩ := bind_inv h
          dsimp only
          rw [h2]
          dsimp only
          split at h
          · rename_i h3; rw [if_pos h3]; simp at h; exact h.1
          · rename_i h3; rw [if_neg h3]
            split at h
            · rename_i h4; rw [if_pos h4]; exact iha _ _ _ _ _ _ h
            · rename_i h4; rw [if_neg h4]
              split at h
              · rename_i h5; rw [if_pos h5]
                obtain ⟨⟨a, b, d⟩, h6, h⟩ := bind_inv h
                rw [h6]
                exact iha _ _ _ _ _ _ h
              · rename_i h5; rw [if_neg h5]
                split at h
                · rename_i h6; rw [if_pos h6]
                  obtain ⟨⟨a, b, d⟩, h7, h⟩ := bind_inv h
                  rw [h7]
                  exact iha _ _ _ _ _ _ h
                · rename_i h6; rw [if_neg h6]
                  obtain ⟨x, h7, h⟩ := bind_inv h
                  rw [h7]
                  match x with
                  | none => simp at h
                  | some (a, b, d) => exact iha _ _ _ _ _ _ h
      · simp at h
    · intro it o st it' v e h
      rw [objLoopB] at h
      rw [objLeft]
      by_cases hlt : o < it.length
      · rw [if_pos hlt] at h
        rw [if_pos hlt]
        obtain ⟨⟨o1, r⟩, h1, h⟩ := bind_inv h
        rw [h1]
        dsimp only at h
        split at h
        · simp at h
        · rename_i hr
          simp only [Bool.not_eq_true] at hr
          subst hr
          obtain ⟨c, h2, h⟩ := bind_inv h
          dsimp only
          rw [h2]
          dsimp only
          have next : ∀ {it2 : Bytes} {o2 : Nat} {s2 e2 : Nat} {v2 : PV}, (do
              let st ← setMemberB it2 st s2 e2 v2
              objLoopB E f it2 o2 st) = .ok (it', v, e) → objLeft E f it2 o2 false false = it' := by
            intro it2 o2 s2 e2 v2 h
            obtain ⟨st', h8, h⟩ := bind_inv h
            have hk := setMemberB_keys h8
            have := iho _ _ _ _ _ _ h
            rw [hk.1, hk.2] at this
            exact this
          split at h
          · rename_i h3; rw [if_pos h3]
            cases hk : st.key with
            | some p => rw [hk] at h; simp at h
            | none => rw [hk] at h; simp at h; exact h.1
          · rename_i h3; rw [if_neg h3]
            split at h
            · rename_i h4; rw [if_pos h4]
              cases hk : st.key with
              | some p => rw [hk] at h; simp at h
              | none => rw [hk] at h; have := iho _ _ _ _ _ _ h; rw [hk] at this; simpa using this
            · rename_i h4; rw [if_neg h4]
              split at h
              · rename_i h5; rw [if_pos h5]
                split at h
                · simp at h
                · rename_i hcol
                  cases hk : st.key with
                  | none => rw [hk] at h; simp at h
                  | some p =>
                    rw [hk] at h; have := iho _ _ _ _ _ _ h
                    simp only [hk] at this
                    simpa [hcol] using this
              · rename_i h5; rw [if_neg h5]
                split at h
                · rename_i h6; rw [if_pos h6]
                  cases hk : st.key with
                  | some p =>
                    obtain ⟨s, e0⟩ := p
                    rw [hk] at h
                    dsimp only at h
                    split at h
                    · simp at h
                    · rename_i hcol
                      obtain ⟨⟨a, b, d⟩, h7, h⟩ := bind_inv h
                      obtain ⟨_, _, h⟩ := bind_inv h
                      simp only [Bool.not_eq_true] at hcol
                      simp only [Option.isSome_some, Bool.true_and, hcol, Bool.false_eq_true, if_false, h7, Bool.not_true, Bool.and_false]
                      exact next h
                  | none =>
                    rw [hk] at h
                    obtain ⟨⟨a, b, d⟩, h7, h⟩ := bind_inv h
                    simp only [Option.isSome_none, Bool.false_and, Bool.false_eq_true, if_false, h7, Bool.not_false, Bool.and_true]
                    exact iho _ _ _ _ _ _ h
                · rename_i h6; rw [if_neg h6]
                  split at h
                  · cases hk : st.key with
                    | none => rw [hk] at h; simp at h
                    | some p =>
                      obtain ⟨s, e0⟩ := p
                      rw [hk] at h
                      dsimp only at h
                      split at h
                      · simp at h
                      · rename_i hcol
                        simp only [Bool.not_eq_true] at hcol
                        simp only [Option.isSome_some, Bool.not_true, Bool.false_or, hcol, Bool.false_eq_true, if_false]
                        split at h
                        · rename_i h7; rw [if_pos h7]
                          obtain ⟨⟨a, b, d⟩, h8, h⟩ := bind_inv h
                          rw [h8]
                          exact next h
                        · rename_i h7; rw [if_neg h7]
                          split at h
                          · rename_i h8; rw [if_pos h8]
                            obtain ⟨⟨a, b, d⟩, h9, h⟩ := bind_inv h
                            rw [h9]
                            exact next h
                          · rename_i h8; rw [if_neg h8]
                            obtain ⟨x, h9, h⟩ := bind_inv h
                            rw [h9]
                            match x with
                            | none => simp at h
                            | some (a, b, d) => exact next h
                  · simp at h
      · rw [if_neg hlt] at h; simp at h

/-- the buffer left by a successful parse is the one it returns -/
theorem left_ok {E : Env} {b it : Bytes} {v : PV} (h : unmarshalWithIterB E b = .ok (it, v)) : leftB E b = it := by
  unfold unmarshalWithIterB at h
  obtain ⟨⟨o, r⟩, h1, h⟩ := bind_inv h
  unfold leftB
  rw [h1]
  dsimp only at h
  split at h
  · simp at h
  · rename_i hr
    simp only [Bool.not_eq_true] at hr
    subst hr
    obtain ⟨c, h2, h⟩ := bind_inv h
    dsimp only
    rw [h2]
    dsimp only
    obtain ⟨⟨it2, w, e⟩, h3, h⟩ := bind_inv h
    obtain ⟨⟨_, r2⟩, h4, h⟩ := bind_inv h
    dsimp only at h
    split at h
    · simp at h
      rw [← h.1]
      unfold parseValueB at h3
      split at h3
      · rename_i h5; rw [if_pos h5]; exact (loops_left_ok E _).2 _ _ _ _ _ _ h3
      · rename_i h5; rw [if_neg h5]
        split at h3
        · rename_i h6; rw [if_pos h6]; exact (loops_left_ok E _).1 _ _ _ _ _ _ h3
        · rename_i h6; rw [if_neg h6]
          obtain ⟨x, h7, h3⟩ := bind_inv h3
          match x, h7, h3 with
          | none, h7, h3 => simp at h3
          | some y, h7, h3 =>
            simp at h3
            subst h3
            exact scalarLeft_ok h7
    · simp at h

/-! ### it differs from the text inside string literals only -/

theorem torn_refl (s : Bytes) : PartlyDecoded s s := ⟨[], [], s, s, by simp, by simp, .nil, .inl rfl⟩

theorem torn_after {s ext t t' : Bytes} (h : Eaten s ext t) (h' : PartlyDecoded t t') : PartlyDecoded s (ext ++ t') := by
  obtain ⟨o, rfl, hf⟩ := h
  obtain ⟨o2, e2, r, r', rfl, rfl, hf2, hu⟩ := h'
  exact ⟨o ++ o2, ext ++ e2, r, r', by simp, by simp, hf.append hf2, hu⟩

/-- `dec` was decoded from the beginning of the literal, `gap` are the bytes of it behind `dec` -/
theorem strLeft_rel (f : Nat) (pre dec gap t : Bytes) :
    ∃ body d rest, LStr body d ∧ t = body ++ rest ∧
      strLeft f (pre ++ dec ++ (gap ++ t)) ((pre ++ dec).length + gap.length) (pre ++ dec).length =
        pre ++ (dec ++ d) ++ ((gap ++ body).drop d.length ++ rest) := by
  induction f generalizing dec gap t with
  | zero => exact ⟨[], [], t, .nil, by simp, by simp [strLeft]⟩
  | succ f ih =>
    match t with
    | [] =>
      refine ⟨[], [], [], .nil, by simp, ?_⟩
      simp only [strLeft]
      rw [if_neg (by simp; omega)]
      simp
    | c :: t =>
      have hlt : (pre ++ dec).length + gap.length < (pre ++ dec ++ (gap ++ c :: t)).length := by simp; omega
      simp only [strLeft]
      rw [if_pos hlt]
      have hs := strStepB_rel (pre ++ dec) gap t c
      have stop : ∃ body d rest, LStr body d ∧ c :: t = body ++ rest ∧
          pre ++ dec ++ (gap ++ c :: t) = pre ++ (dec ++ d) ++ ((gap ++ body).drop d.length ++ rest) := ⟨[], [], c :: t, .nil, by simp, by simp⟩
      match hst : strStep c t, hs with
      | .ok none, hs =>
        simp only [StepRel] at hs
        rw [hs]; exact stop
      | .ok (some (bs, t')), hs =>
        obtain ⟨g, hb, hg, hl⟩ := hs
        simp only [hb, outB]
        obtain ⟨body, d, rest, h1, h2, h4⟩ := ih (dec ++ bs) (g.drop bs.length) t'
        rw [← List.append_assoc pre dec bs] at h4
        obtain ⟨p, hp, hp2⟩ := strStep_sound hst
        refine ⟨p ++ body, bs ++ d, rest, hp2 _ _ h1, by rw [hp, h2]; simp, ?_⟩
        have hgp : g = gap ++ p := by
          rw [hp, ← List.append_assoc] at hg
          exact (List.append_cancel_right hg).symm
        rw [h4]
        have : (gap ++ (p ++ body)).drop (bs ++ d).length = (g.drop bs.length ++ body).drop d.length := by
          rw [← List.append_assoc, ← hgp, List.length_append, ← List.drop_drop, List.drop_append_of_le_length hl]
        rw [this]
        simp
      | .err e, hs =>
        simp only [StepRel] at hs
        rw [hs]; exact stop

theorem strLeft_torn (f : Nat) (pre t : Bytes) :
    ∃ t', strLeft f (pre ++ 0x22 :: t) (pre.length + 1) (pre.length + 1) = pre ++ t' ∧ PartlyDecoded (0x22 :: t) t' := by
  obtain ⟨body, d, rest, h1, h2, h4⟩ := strLeft_rel f (pre ++ [0x22]) [] [] t
  refine ⟨0x22 :: (d ++ body.drop d.length) ++ rest, by simpa using h4, [], [], _, _, (List.nil_append _).symm, (List.nil_append _).symm, .nil,
    .inr ⟨body, d, rest, h1, by rw [h2]; simp, by simp⟩⟩

theorem scalarLeft_torn (f : Nat) (pre t : Bytes) (c : UInt8) :
    ∃ t', scalarLeft f (pre ++ c :: t) pre.length c = pre ++ t' ∧ PartlyDecoded (c :: t) t' := by
  unfold scalarLeft
  by_cases h : c = 0x22
  · rw [if_pos h, h]; exact strLeft_torn f pre t
  · rw [if_neg h]; exact ⟨_, rfl, torn_refl _⟩

/-- a completed part -/
theorem res_eaten {pre s : Bytes} {a : R (V × Bytes)} {b : R (Bytes × PV × Nat)} {r : Bytes × PV × Nat} (h : ResRel pre s a b) (hb : b = .ok r) :
    ∃ ext t', r.1 = pre ++ ext ++ t' ∧ r.2.2 = (pre ++ ext).length ∧ Eaten s ext t' := by
  match a, h with
  | .ok (v, t'), ⟨r', h1, ext, pv, h2, h3, _⟩ =>
    rw [hb] at h1
    simp only [R.ok.injEq] at h1
    subst h1
    subst h2
    exact ⟨ext, t', rfl, rfl, h3⟩
  | .err e, h => simp only [ResRel] at h; rw [hb] at h; simp at h
  | .diverge, h => simp only [ResRel] at h; rw [hb] at h; simp at h

theorem resO_eaten {pre s : Bytes} {a : R (Option (V × Bytes))} {b : R (Option (Bytes × PV × Nat))} {r : Bytes × PV × Nat} (h : ResRelO pre s a b)
    (hb : b = .ok (some r)) : ∃ ext t', r.1 = pre ++ ext ++ t' ∧ r.2.2 = (pre ++ ext).length ∧ Eaten s ext t' := by
  match a, h with
  | .ok (some (v, t')), ⟨r', h1, ext, pv, h2, h3, _⟩ =>
    rw [hb] at h1
    simp only [R.ok.injEq, Option.some.injEq] at h1
    subst h1
    subst h2
    exact ⟨ext, t', rfl, rfl, h3⟩
  | .ok none, h => simp only [ResRelO] at h; rw [hb] at h; simp at h
  | .err e, h => simp only [ResRelO] at h; rw [hb] at h; simp at h
  | .diverge, h => simp only [ResRelO] at h; rw [hb] at h; simp at h

theorem parseStr_eaten {f : Nat} {pre t : Bytes} {r : Bytes × Nat × Nat} (hb : parseStrB f (pre ++ 0x22 :: t) pre.length = .ok r) :
    ∃ ext t', r.1 = pre ++ ext ++ t' ∧ r.2.2 = (pre ++ ext).length ∧ Eaten (0x22 :: t) ext t' := by
  have h := parseStrB_rel f pre 0x22 t
  match hs : strLoop f t [], h with
  | .ok (s, t'), ⟨gap, h1, h2⟩ =>
    rw [hb] at h1
    simp only [R.ok.injEq] at h1
    subst h1
    exact ⟨[0x22] ++ s ++ gap, t', by simp, by simp; omega, h2 rfl⟩
  | .err e, h => simp only at h; rw [hb] at h; simp at h
  | .diverge, h => simp only at h; rw [hb] at h; simp at h

/-- what is proved of every part of the parser -/
def TornFrom (left : Bytes → Nat → Bytes) : Prop := ∀ pre t, ∃ t', left (pre ++ t) pre.length = pre ++ t' ∧ PartlyDecoded t t'

theorem TornFrom.step {left : Bytes → Nat → Bytes} (h : TornFrom left) {it pre ext s t : Bytes} {o : Nat} (h1 : it = pre ++ ext ++ t)
    (h2 : o = (pre ++ ext).length) (h3 : Eaten s ext t) : ∃ t', left it o = pre ++ t' ∧ PartlyDecoded s t' := by
  obtain ⟨t', h4, h5⟩ := h (pre ++ ext) t
  refine ⟨ext ++ t', by rw [h1, h2, h4]; simp, torn_after h3 h5⟩

theorem loops_torn (E : Env) (f : Nat) :
    TornFrom (arrLeft E f) ∧ ∀ k c, TornFrom (fun it o => objLeft E f it o k c) := by
  induction f with
  | zero => exact ⟨fun pre t => ⟨t, by simp [arrLeft], torn_refl _⟩, fun k c pre t => ⟨t, by simp [objLeft], torn_refl _⟩⟩
  | succ f ih =>
    obtain ⟨iha, iho⟩ := ih
    have hobj : ∀ (pre t : Bytes) (r : Bytes × PV × Nat), objLoopB E f (pre ++ t) pre.length {} = .ok r →
        ∃ ext t', r.1 = pre ++ ext ++ t' ∧ r.2.2 = (pre ++ ext).length ∧ Eaten t ext t' := fun pre t r h =>
      res_eaten ((loops_rel E f).2 pre t {} ⟨by simp, trivial⟩) h
    have harr : ∀ (pre t : Bytes) (r : Bytes × PV × Nat), arrLoopB E f (pre ++ t) pre.length [] = .ok r →
        ∃ ext t', r.1 = pre ++ ext ++ t' ∧ r.2.2 = (pre ++ ext).length ∧ Eaten t ext t' := fun pre t r h =>
      res_eaten ((loops_rel E f).1 pre t [] trivial) h
    -- an object or array and what follows it
    have sub : ∀ (left : Bytes → Nat → Bytes) (leftS : Bytes → Nat → Bytes) (loop : Bytes → Nat → R (Bytes × PV × Nat)),
        TornFrom left → TornFrom leftS →
        (∀ (pre t : Bytes) (r : Bytes × PV × Nat), loop (pre ++ t) pre.length = .ok r →
          ∃ ext t', r.1 = pre ++ ext ++ t' ∧ r.2.2 = (pre ++ ext).length ∧ Eaten t ext t') →
        TornFrom (fun it o => match loop it o with
          | .ok (it, _, e) => left it e
          | _ => leftS it o) := by
      intro left leftS loop h1 h2 h3 pre t
      dsimp only
      match hl : loop (pre ++ t) pre.length with
      | .ok (it, v, e) =>
        obtain ⟨ext, t', h4, h5, h6⟩ := h3 pre t _ hl
        exact h1.step h4 h5 h6
      | .err _ => exact h2 pre t
      | .panic => exact h2 pre t
      | .diverge => exact h2 pre t
    constructor
    · intro pre t
      simp only [arrLeft]
      match hsb : skipBlanks t with
      | [] =>
        by_cases hlt : pre.length < (pre ++ t).length
        · obtain ⟨o, ho⟩ := skipBlanksB_nil pre t hsb
          rw [if_pos hlt, ho]
          exact ⟨t, rfl, torn_refl _⟩
        · rw [if_neg hlt]; exact ⟨t, rfl, torn_refl _⟩
      | c :: t1 =>
        obtain ⟨b, hb, hsk⟩ := skipBlanksB_cons pre t t1 c hsb
        have hlt : pre.length < (pre ++ t).length := by rw [hb]; simp; omega
        have hrd : rd (pre ++ t) (pre ++ b).length = .ok c := by
          rw [hb, ← List.append_assoc, rd_app0]; rfl
        have hbq : (0x22 : UInt8) ∉ b := skipBlanks_noquote hsb hb
        have hbc : c ≠ 0x22 → Eaten t (b ++ [c]) t1 := fun hc => .same (by rw [hb]; simp) (by
          simp only [List.mem_append, List.mem_singleton, not_or]; exact ⟨hbq, fun e => hc e.symm⟩)
        have hbb : Eaten t b (c :: t1) := .same hb hbq
        have e1 : pre ++ t = pre ++ (b ++ [c]) ++ t1 := by rw [hb]; simp
        have e2 : (pre ++ b).length + 1 = (pre ++ (b ++ [c])).length := by simp; omega
        rw [if_pos hlt, hsk]
        dsimp only
        rw [hrd]
        dsimp only
        by_cases h1 : c = 0x5D
        · rw [if_pos h1]; exact ⟨t, rfl, torn_refl _⟩
        · rw [if_neg h1]
          by_cases h2 : c = 0x2C
          · rw [if_pos h2]; exact iha.step e1 e2 (hbc (by rw [h2]; decide))
          · rw [if_neg h2]
            by_cases h3 : c = 0x7B
            · rw [if_pos h3]
              exact (sub _ _ (fun it o => objLoopB E f it o {}) iha (iho false false) hobj).step e1 e2 (hbc (by rw [h3]; decide))
            · rw [if_neg h3]
              by_cases h4 : c = 0x5B
              · rw [if_pos h4]
                exact (sub _ _ (fun it o => arrLoopB E f it o []) iha iha harr).step e1 e2 (hbc (by rw [h4]; decide))
              · rw [if_neg h4]
                have e3 : pre ++ t = pre ++ b ++ c :: t1 := by rw [hb]; simp
                rw [e3]
                have stop : ∃ t', scalarLeft (f+1) (pre ++ b ++ c :: t1) (pre ++ b).length c = pre ++ t' ∧ PartlyDecoded t t' := by
                  obtain ⟨t', h5, h6⟩ := scalarLeft_torn (f+1) (pre ++ b) t1 c
                  exact ⟨b ++ t', by rw [h5]; simp, torn_after hbb h6⟩
                match hp : parseScalarB E (f+1) (pre ++ b ++ c :: t1) (pre ++ b).length c with
                | .ok (some (it, v, e)) =>
                  obtain ⟨ext, t', h5, h6, h7⟩ := resO_eaten (parseScalarB_rel E (f+1) (pre ++ b) c t1) hp
                  exact iha.step (ext := b ++ ext) (by dsimp only at h5; rw [h5]; simp) (by dsimp only at h6; rw [h6]; simp) (hbb.trans h7)
                | .ok none => exact stop
                | .err _ => exact stop
                | .panic => exact stop
                | .diverge => exact stop
    · intro k co pre t
      simp only [objLeft]
      match hsb : skipBlanks t with
      | [] =>
        by_cases hlt : pre.length < (pre ++ t).length
        · obtain ⟨o, ho⟩ := skipBlanksB_nil pre t hsb
          rw [if_pos hlt, ho]
          exact ⟨t, rfl, torn_refl _⟩
        · rw [if_neg hlt]; exact ⟨t, rfl, torn_refl _⟩
      | c :: t1 =>
        obtain ⟨b, hb, hsk⟩ := skipBlanksB_cons pre t t1 c hsb
        have hlt : pre.length < (pre ++ t).length := by rw [hb]; simp; omega
        have hrd : rd (pre ++ t) (pre ++ b).length = .ok c := by
          rw [hb, ← List.append_assoc, rd_app0]; rfl
        have hbq : (0x22 : UInt8) ∉ b := skipBlanks_noquote hsb hb
        have hbc : c ≠ 0x22 → Eaten t (b ++ [c]) t1 := fun hc => .same (by rw [hb]; simp) (by
          simp only [List.mem_append, List.mem_singleton, not_or]; exact ⟨hbq, fun e => hc e.symm⟩)
        have hbb : Eaten t b (c :: t1) := .same hb hbq
        have e1 : pre ++ t = pre ++ (b ++ [c]) ++ t1 := by rw [hb]; simp
        have e2 : (pre ++ b).length + 1 = (pre ++ (b ++ [c])).length := by simp; omega
        have e3 : pre ++ t = pre ++ b ++ c :: t1 := by rw [hb]; simp
        have same : ∃ t', pre ++ t = pre ++ t' ∧ PartlyDecoded t t' := ⟨t, rfl, torn_refl _⟩
        rw [if_pos hlt, hsk]
        dsimp only
        rw [hrd]
        dsimp only
        by_cases h1 : c = 0x7D
        · rw [if_pos h1]; exact same
        · rw [if_neg h1]
          by_cases h2 : c = 0x2C
          · rw [if_pos h2]
            by_cases hk : k = true
            · rw [if_pos hk]; exact same
            · rw [if_neg hk]; exact (iho k co).step e1 e2 (hbc (by rw [h2]; decide))
          · rw [if_neg h2]
            by_cases h3 : c = 0x3A
            · rw [if_pos h3]
              by_cases hk : (co || !k) = true
              · rw [if_pos hk]; exact same
              · rw [if_neg hk]; exact (iho k true).step e1 e2 (hbc (by rw [h3]; decide))
            · rw [if_neg h3]
              by_cases h4 : c = 0x22
              · rw [if_pos h4]
                by_cases hk : (k && !co) = true
                · rw [if_pos hk]; exact same
                · rw [if_neg hk, e3]
                  subst h4
                  have stop : ∃ t', strLeft (f+1) (pre ++ b ++ 0x22 :: t1) ((pre ++ b).length + 1) ((pre ++ b).length + 1) = pre ++ t' ∧ PartlyDecoded t t' := by
                    obtain ⟨t', h5, h6⟩ := strLeft_torn (f+1) (pre ++ b) t1
                    exact ⟨b ++ t', by rw [h5]; simp, torn_after hbb h6⟩
                  match hp : parseStrB (f+1) (pre ++ b ++ 0x22 :: t1) (pre ++ b).length with
                  | .ok (it, v, e) =>
                    obtain ⟨ext, t', h5, h6, h7⟩ := parseStr_eaten hp
                    exact (iho (!k) (co && !k)).step (ext := b ++ ext) (by dsimp only at h5; rw [h5]; simp) (by dsimp only at h6; rw [h6]; simp) (hbb.trans h7)
                  | .err _ => exact stop
                  | .panic => exact stop
                  | .diverge => exact stop
              · rw [if_neg h4]
                by_cases hk : (!k || !co) = true
                · rw [if_pos hk]; exact same
                · rw [if_neg hk]
                  by_cases h5 : c = 0x7B
                  · rw [if_pos h5]
                    exact (sub _ _ (fun it o => objLoopB E f it o {}) (iho false false) (iho false false) hobj).step e1 e2 (hbc h4)
                  · rw [if_neg h5]
                    by_cases h6 : c = 0x5B
                    · rw [if_pos h6]
                      exact (sub _ _ (fun it o => arrLoopB E f it o []) (iho false false) iha harr).step e1 e2 (hbc h4)
                    · rw [if_neg h6]
                      match hp : parseScalarB E (f+1) (pre ++ t) (pre ++ b).length c with
                      | .ok (some (it, v, e)) =>
                        rw [e3] at hp
                        obtain ⟨ext, t', h5, h6, h7⟩ := resO_eaten (parseScalarB_rel E (f+1) (pre ++ b) c t1) hp
                        exact (iho false false).step (ext := b ++ ext) (by dsimp only at h5; rw [h5]; simp) (by dsimp only at h6; rw [h6]; simp) (hbb.trans h7)
                      | .ok none => exact ⟨t, rfl, torn_refl _⟩
                      | .err _ => exact ⟨t, rfl, torn_refl _⟩
                      | .panic => exact ⟨t, rfl, torn_refl _⟩
                      | .diverge => exact ⟨t, rfl, torn_refl _⟩

theorem leftB_torn (E : Env) (s : Bytes) : PartlyDecoded s (leftB E s) := by
  unfold leftB
  match hsb : skipBlanks s with
  | [] =>
    obtain ⟨o, ho⟩ := skipBlanksB_nil [] s hsb
    simp only [List.nil_append, List.length_nil] at ho
    rw [ho]
    exact torn_refl _
  | c :: t1 =>
    obtain ⟨b, hb, hsk⟩ := skipBlanksB_cons [] s t1 c hsb
    simp only [List.nil_append, List.length_nil] at hsk
    have hrd : rd s b.length = .ok c := by rw [hb, rd_app0]; rfl
    have hbq : (0x22 : UInt8) ∉ b := skipBlanks_noquote hsb hb
    have hbc : c ≠ 0x22 → Eaten s (b ++ [c]) t1 := fun hc => .same (by rw [hb]; simp) (by
      simp only [List.mem_append, List.mem_singleton, not_or]; exact ⟨hbq, fun e => hc e.symm⟩)
    rw [hsk]
    dsimp only
    rw [hrd]
    dsimp only
    by_cases h1 : c = 0x7B
    · rw [if_pos h1]
      obtain ⟨t', h2, h3⟩ := ((loops_torn E (s.length + 1)).2 false false).step (it := s) (pre := []) (ext := b ++ [c]) (t := t1) (o := b.length + 1)
        (by rw [hb]; simp) (by simp) (hbc (by rw [h1]; decide))
      rw [h2]; exact h3
    · rw [if_neg h1]
      by_cases h2 : c = 0x5B
      · rw [if_pos h2]
        obtain ⟨t', h2, h3⟩ := ((loops_torn E (s.length + 1)).1).step (it := s) (pre := []) (ext := b ++ [c]) (t := t1) (o := b.length + 1)
          (by rw [hb]; simp) (by simp) (hbc (by rw [h2]; decide))
        rw [h2]; exact h3
      · rw [if_neg h2]
        obtain ⟨t', h5, h6⟩ := scalarLeft_torn (s.length + 1) b t1 c
        rw [← hb] at h5
        rw [h5]
        exact torn_after (.same hb hbq) h6

/-! ### the mask -/

theorem strMask_part {body d : Bytes} (h : LStr body d) (s : Bytes) :
    strMask (body ++ s) true 0 = List.replicate body.length true ++ strMask s true 0 := by
  induction h with
  | nil => simp
  | ascii c t d h1 h2 h3 _ ih =>
    rw [List.cons_append, strMask_plain _ h2 h3 (ascii_plain c h1), ih]; rfl
  | multi c m t d h1 h2 _ ih =>
    have hf := (lead_facts c).2.2.2.1 (by omega)
    have : strMask (c :: m ++ t ++ s) true 0 = true :: strMask (m ++ (t ++ s)) true (leadLen c - 1) := by
      simp [strMask, hf.2.1, hf.2.2]
    rw [this, h1, show m.length + 1 - 1 = m.length by omega, strMask_skip, ih]
    simp [← List.replicate_append_replicate, List.replicate_succ]
  | esc c b t d h1 _ ih =>
    have : strMask (0x5C :: c :: t ++ s) true 0 = true :: true :: strMask (t ++ s) true 0 := by simp [strMask]
    rw [this, ih]; rfl
  | uni e r t d h1 h2 _ ih =>
    rw [List.append_assoc, strMask_uesc h1, ih]; simp [← List.replicate_append_replicate]
  | pair e1 e2 hi lo t d h1 h2 _ _ _ _ _ ih =>
    rw [List.append_assoc, List.append_assoc, strMask_uesc h1, strMask_uesc h2, ih]; simp [← List.replicate_append_replicate]

theorem torn_mask {s s' : Bytes} (h : PartlyDecoded s s') : s'.length = s.length ∧ ∀ i : Nat, (strMask s false 0)[i]? = some false → s'[i]? = s[i]? := by
  obtain ⟨o, e, r, r', rfl, rfl, hf, hu⟩ := h
  have hu : r'.length = r.length ∧ ∀ i : Nat, (strMask r false 0)[i]? = some false → r'[i]? = r[i]? := by
    rcases hu with rfl | ⟨body, d, rest, hb, rfl, rfl⟩
    · exact ⟨rfl, fun _ _ => rfl⟩
    · have hl : (d ++ body.drop d.length).length = body.length := by have := lstr_short hb; simp; omega
      refine ⟨by simp only [List.cons_append, List.length_cons, List.length_append] at hl ⊢; omega, fun i h => ?_⟩
      have : strMask (0x22 :: body ++ rest) false 0 = false :: strMask (body ++ rest) true 0 := by simp [strMask]
      rw [this, strMask_part hb] at h
      match i with
      | 0 => rfl
      | i+1 =>
        simp only [List.cons_append, List.getElem?_cons_succ] at h ⊢
        by_cases h1 : i < body.length
        · rw [List.getElem?_append_left (by simpa using h1)] at h
          simp [h1] at h
        · rw [List.getElem?_append_right (by omega), List.getElem?_append_right (by omega), hl]
  refine ⟨by simp [hf.length, hu.1], ?_⟩
  induction hf with
  | nil => simpa using hu.2
  | plain c s s' hc _ ih =>
    intro i h
    have : strMask (c :: (s ++ r)) false 0 = false :: strMask (s ++ r) false 0 := by
      simp only [strMask]; rw [show (c == 0x22) = false by simpa using hc]
    rw [List.cons_append, this] at h
    match i with
    | 0 => rfl
    | i+1 => simpa using ih i (by simpa using h)
  | lit body d s s' hb _ ih =>
    intro i h
    have hl : (d ++ body.drop d.length).length = body.length := by have := lstr_short hb; simp; omega
    rw [show 0x22 :: (d ++ body.drop d.length) ++ 0x22 :: s' ++ r' = 0x22 :: ((d ++ body.drop d.length) ++ 0x22 :: (s' ++ r')) by simp,
      show 0x22 :: body ++ 0x22 :: s ++ r = 0x22 :: (body ++ 0x22 :: (s ++ r)) by simp] at *
    have : strMask (0x22 :: (body ++ 0x22 :: (s ++ r))) false 0 = false :: strMask (body ++ 0x22 :: (s ++ r)) true 0 := by simp [strMask]
    rw [this, strMask_body hb] at h
    match i with
    | 0 => rfl
    | i+1 =>
      simp only [List.getElem?_cons_succ] at h ⊢
      by_cases h1 : i < body.length
      · rw [List.getElem?_append_left (by simpa using h1)] at h
        simp [h1] at h
      · rw [List.getElem?_append_right (by simpa using h1)] at h
        rw [List.getElem?_append_right (by omega), List.getElem?_append_right (by omega), hl]
        simp only [List.length_replicate] at h
        match hj : i - body.length with
        | 0 => rfl
        | j+1 =>
          rw [hj] at h
          simpa using ih j (by simpa using h)

/-! ### texts without escapes are not changed -/

theorem lstr_plain {body d : Bytes} (h : LStr body d) (hb : (0x5C : UInt8) ∉ body) : d = body := by
  induction h with
  | nil => rfl
  | ascii c t d _ _ _ _ ih => rw [ih (fun h => hb (by simp [h]))]
  | multi c m t d _ _ _ ih => rw [ih (fun h => hb (by simp [h]))]
  | esc c b t d _ _ _ => exact absurd (by simp) hb
  | uni e r t d h1 _ _ _ =>
    obtain ⟨a, b, c, d', x3, x2, x1, x0, rfl, -⟩ := h1
    exact absurd (by simp) hb
  | pair e1 e2 hi lo t d h1 _ _ _ _ _ _ _ =>
    obtain ⟨a, b, c, d', x3, x2, x1, x0, rfl, -⟩ := h1
    exact absurd (by simp) hb

theorem decoded_plain {s s' : Bytes} (h : Decoded s s') (hb : (0x5C : UInt8) ∉ s) : s' = s := by
  induction h with
  | nil => rfl
  | plain c s s' _ _ ih => rw [ih (fun h => hb (by simp [h]))]
  | lit body d s s' hl _ ih => rw [ih (fun h => hb (by simp [h])), lstr_plain hl (fun h => hb (by simp [h]))]; simp

theorem torn_plain {s s' : Bytes} (h : PartlyDecoded s s') (hb : (0x5C : UInt8) ∉ s) : s' = s := by
  obtain ⟨o, e, r, r', rfl, rfl, hf, hu⟩ := h
  rw [decoded_plain hf (fun h => hb (by simp [h]))]
  rcases hu with rfl | ⟨body, d, rest, hl, rfl, rfl⟩
  · rfl
  · rw [lstr_plain hl (fun h => hb (by simp [h]))]; simp

end JV
