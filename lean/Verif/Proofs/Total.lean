import Verif.Proofs.RefineVal
/-! Progress of the functional parser, hence enough fuel; and the top level refinement. -/
namespace JV

theorem escUnicode_rest {s bs t : Bytes} (h : escUnicode s = .ok (bs, t)) : t.length < s.length := by
  match s with
  | [] => simp [escUnicode] at h
  | [_] => simp [escUnicode] at h
  | [_, _] => simp [escUnicode] at h
  | [_, _, _] => simp [escUnicode] at h
  | [_, _, _, _] => simp [escUnicode] at h
  | a :: b :: c :: d :: x :: u =>
    simp only [escUnicode] at h
    rcases hex4_cases a b c d with ⟨r, hr, -⟩ | hr
    · simp only [hr, R.bind_ok] at h
      split at h
      · simp only [R.pure_eq, R.ok.injEq, Prod.mk.injEq] at h; rw [← h.2]; simp
      · split at h
        · rename_i _ q a' b' c' d' y u'
          split at h
          · simp at h
          · split at h
            · simp at h
            · rcases hex4_cases a' b' c' d' with ⟨e, he, -⟩ | he
              · simp only [he, R.bind_ok] at h
                rcases surrogatePair_cases r e with ⟨r', hr'⟩ | hr'
                · simp only [hr', R.bind_ok, R.pure_eq, R.ok.injEq, Prod.mk.injEq] at h
                  rw [← h.2]; simp
                · simp [hr'] at h
              · simp [he] at h
        · simp at h
    · simp [hr] at h

theorem shiftA_rest {s bs t : Bytes} {n : Nat} (hn : 0 < n) (_hs : 0 < s.length) (h : shiftA s n = .ok (bs, t)) : t.length < s.length := by
  unfold shiftA at h
  split at h
  · simp at h
  · simp only [R.ok.injEq, Prod.mk.injEq] at h; rw [← h.2]; simp; omega

theorem strStep_rest {c : UInt8} {t bs t' : Bytes} (h : strStep c t = .ok (some (bs, t'))) : t'.length ≤ t.length := by
  unfold strStep at h
  have hsh : ∀ n, 0 < n → (do return some (← shiftA (c :: t) n) : R (Option (Bytes × Bytes))) = .ok (some (bs, t')) → t'.length ≤ t.length := by
    intro n hn h
    match hx : shiftA (c :: t) n with
    | .ok (b, u) =>
      have := shiftA_rest hn (by simp) hx
      rw [hx] at h
      simp only [R.bind_ok, R.pure_eq, R.ok.injEq, Option.some.injEq, Prod.mk.injEq] at h
      rw [← h.2]; simp at this; omega
    | .err e => simp [hx] at h
    | .panic => simp [hx] at h
    | .diverge => simp [hx] at h
  split at h
  · match t with
    | [] => simp at h
    | e :: t =>
      simp only at h
      split at h
      · simp only [R.pure_eq, R.ok.injEq, Option.some.injEq, Prod.mk.injEq] at h; rw [← h.2]; simp
      · split at h
        · match hx : escUnicode t with
          | .ok (b, u) =>
            have := escUnicode_rest hx
            rw [hx] at h
            simp only [R.bind_ok, R.pure_eq, R.ok.injEq, Option.some.injEq, Prod.mk.injEq] at h
            rw [← h.2]; simp; omega
          | .err e => simp [hx] at h
          | .panic => simp [hx] at h
          | .diverge => simp [hx] at h
        · simp at h
  · split at h
    · simp at h
    · split at h
      · simp only [R.pure_eq, R.ok.injEq, Option.some.injEq, Prod.mk.injEq] at h; rw [← h.2]; simp
      · split at h
        · exact hsh 2 (by omega) h
        · split at h
          · exact hsh 3 (by omega) h
          · split at h
            · exact hsh 4 (by omega) h
            · simp at h

theorem strStep_ne_diverge (c : UInt8) (t : Bytes) : strStep c t ≠ .diverge := by
  have := strStepB_rel [] [] t c
  intro h; rw [h] at this; exact this

/-- with enough fuel the string loop ends, having consumed at least the closing quote -/
theorem strLoop_total (f : Nat) (t acc : Bytes) (hf : t.length < f) :
    strLoop f t acc ≠ .diverge ∧ ∀ s t', strLoop f t acc = .ok (s, t') → t'.length < t.length := by
  induction f generalizing t acc with
  | zero => omega
  | succ f ih =>
    match t with
    | [] => simp [strLoop]
    | c :: t =>
      simp only [strLoop]
      match h : strStep c t with
      | .ok none => simp
      | .ok (some (bs, u)) =>
        simp only [R.bind_ok]
        have hu := strStep_rest h
        have := ih u (acc ++ bs) (by simp at hf; omega)
        refine ⟨this.1, fun s t' h' => ?_⟩
        have := this.2 s t' h'; simp; omega
      | .err e => simp
      | .panic => simp
      | .diverge => exact absurd h (strStep_ne_diverge c t)

theorem numLoop_length {acc s text rest : Bytes} {st st' : NumSt} (h : numLoop acc st s = .ok (st', text, rest)) :
    acc.length ≤ text.length ∧ acc ++ s = text ++ rest := by
  induction s generalizing acc st with
  | nil => simp [numLoop] at h; simp [h]
  | cons b t ih =>
    simp only [numLoop] at h
    match hn : numStep acc.length st b with
    | .ok none => simp [hn] at h; obtain ⟨-, rfl, rfl⟩ := h; simp
    | .ok (some st1) =>
      simp only [hn, R.bind_ok] at h
      have := ih h
      simp at this ⊢
      exact ⟨by omega, this.2⟩
    | .err e => simp [hn] at h
    | .panic => simp [hn] at h
    | .diverge => simp [hn] at h

theorem numStep_start {c : UInt8} (h : isNumStart c = true) : ∃ st, numStep 0 {} c = .ok (some st) := by
  unfold isNumStart isDigit at h
  unfold numStep isDigit19
  by_cases h0 : c = 0x30
  · simp [h0]
  · rw [if_neg h0]
    by_cases h1 : c = 0x2D
    · subst h1; exact ⟨_, rfl⟩
    · have h2 : 0x31 ≤ c ∧ c ≤ 0x39 := by
        simp only [Bool.or_eq_true, Bool.and_eq_true, decide_eq_true_eq, beq_iff_eq] at h
        rcases h with h | h
        · refine ⟨?_, h.2⟩
          have h3 : 0x30 ≤ c.toNat := h.1
          have h4 : c.toNat ≠ 0x30 := fun hh => h0 (UInt8.toNat_inj.mp hh)
          show 0x31 ≤ c.toNat
          omega
        · exact absurd h h1
      simp [h2]

theorem parseNumber_rest {E : Env} {c : UInt8} {t : Bytes} {n : Num} {text rest : Bytes} (hc : isNumStart c = true)
    (h : parseNumber E (c :: t) = .ok (n, text, rest)) : rest.length < (c :: t).length := by
  unfold parseNumber at h
  match hn : numLoop [] {} (c :: t) with
  | .ok (st, text', rest') =>
    have key : rest'.length < (c :: t).length := by
      obtain ⟨st1, hs⟩ := numStep_start hc
      have hs' : numStep ([] : Bytes).length {} c = .ok (some st1) := hs
      simp only [numLoop, hs', R.bind_ok] at hn
      have := numLoop_length hn
      have h2 := congrArg List.length this.2
      simp at this h2 ⊢; omega
    have hr : rest = rest' := by
      simp only [hn, R.bind_ok] at h
      split at h
      · split at h
        · simp at h
        · match hr : floatResult E text' with
          | .ok n => simp [hr] at h; exact h.2.2.symm
          | .err e => simp [hr] at h
          | .panic => simp [hr] at h
          | .diverge => simp [hr] at h
      · simp only [rd_zero, R.bind_ok] at h
        split at h
        · simp at h
        · split at h
          · simp at h
          · match hr : intResult E st.negative text'.length st.integer with
            | .ok n => simp [hr] at h; exact h.2.2.symm
            | .err e => simp [hr] at h
            | .panic => simp [hr] at h
            | .diverge => simp [hr] at h
    rw [hr]; exact key
  | .err e => rw [hn] at h; simp at h
  | .panic => rw [hn] at h; simp at h
  | .diverge => rw [hn] at h; simp at h

theorem parseLit_rest {s lit rest : Bytes} {e1 e2 : Err} (hl : 0 < lit.length) (h : parseLit s lit e1 e2 = .ok rest) :
    rest.length < s.length := by
  unfold parseLit at h
  split at h
  · simp at h
  · split at h
    · simp at h; rw [← h]; simp; omega
    · simp at h

theorem parseScalar_total (E : Env) (f : Nat) (c : UInt8) (t : Bytes) (hf : t.length < f) :
    parseScalar E f c t ≠ .diverge ∧ ∀ v t', parseScalar E f c t = .ok (some (v, t')) → t'.length < (c :: t).length := by
  unfold parseScalar
  have hlit : ∀ (lit : Bytes) (e1 e2 : Err) (v' : V), 0 < lit.length →
      (do let rest ← parseLit (c :: t) lit e1 e2; pure (some (v', rest)) : R (Option (V × Bytes))) ≠ .diverge ∧
      ∀ v t', (do let rest ← parseLit (c :: t) lit e1 e2; pure (some (v', rest)) : R (Option (V × Bytes))) = .ok (some (v, t')) → t'.length < (c :: t).length := by
    intro lit e1 e2 v' hl
    match hp : parseLit (c :: t) lit e1 e2 with
    | .ok rest =>
      refine ⟨by simp, ?_⟩
      intro v t' h
      simp only [R.bind_ok, R.pure_eq, R.ok.injEq, Option.some.injEq, Prod.mk.injEq] at h
      rw [← h.2]; exact parseLit_rest hl hp
    | .err e => simp
    | .panic => simp
    | .diverge =>
      have := parseLitB_rel [] (c :: t) lit e1 e2
      rw [hp] at this; exact this.elim
  split
  · rename_i hc
    match hn : parseNumber E (c :: t) with
    | .ok (n, text, rest) =>
      refine ⟨by simp, ?_⟩
      intro v t' h
      simp only [R.bind_ok, R.pure_eq, R.ok.injEq, Option.some.injEq, Prod.mk.injEq] at h
      rw [← h.2]; exact parseNumber_rest hc hn
    | .err e => simp
    | .panic => simp
    | .diverge =>
      have := parseNumberB_rel E [] c t
      rw [hn] at this; exact this.elim
  · split
    · have := strLoop_total f t [] hf
      match hs : strLoop f t [] with
      | .ok (s, t1) =>
        refine ⟨by simp, ?_⟩
        intro v t' h
        simp only [R.bind_ok, R.pure_eq, R.ok.injEq, Option.some.injEq, Prod.mk.injEq] at h
        have := this.2 s t1 hs
        rw [← h.2]; simp; omega
      | .err e => simp
      | .panic => simp
      | .diverge => exact absurd hs this.1
    · split
      · exact hlit _ _ _ _ (by simp [litTrue])
      · split
        · exact hlit _ _ _ _ (by simp [litFalse])
        · split
          · exact hlit _ _ _ _ (by simp [litNull])
          · simp

/-- a result that ended with a rest not longer than `n` -/
def Ends (n : Nat) (r : R (V × Bytes)) : Prop := r ≠ .diverge ∧ ∀ v t', r = .ok (v, t') → t'.length < n

theorem Ends.bind {n m : Nat} {r : R (V × Bytes)} {k : V → Bytes → R (V × Bytes)} (h : Ends n r)
    (hk : ∀ v t', t'.length < n → Ends m (k v t')) : Ends m (do let (v, t) ← r; k v t) := by
  match r, h with
  | .ok (v, t'), h => simpa using hk v t' (h.2 v t' rfl)
  | .err e, _ => simp [Ends]
  | .panic, _ => simp [Ends]
  | .diverge, h => exact absurd rfl h.1

theorem loops_total (E : Env) (f : Nat) :
    (∀ t acc, t.length < f → Ends t.length (arrLoop E f t acc)) ∧
    (∀ t st, t.length < f → Ends t.length (objLoop E f t st)) := by
  have wk : ∀ {n m : Nat} {r : R (V × Bytes)}, n ≤ m → Ends n r → Ends m r := fun h hr =>
    ⟨hr.1, fun v t' ht => Nat.lt_of_lt_of_le (hr.2 v t' ht) h⟩
  have hO : ∀ (n m : Nat) (r : R (Option (V × Bytes))) (x : Err) (k : V → Bytes → R (V × Bytes)),
      (r ≠ .diverge ∧ ∀ v t', r = .ok (some (v, t')) → t'.length < n) → (∀ v t', t'.length < n → Ends m (k v t')) →
      Ends m (do match ← r with
                 | some (v, t) => k v t
                 | none => .err x) := by
    intro n m r x k h hk
    match r, h with
    | .ok none, _ => simp [Ends]
    | .ok (some (v, t')), h => simpa using hk v t' (h.2 v t' rfl)
    | .err e, _ => simp [Ends]
    | .panic, _ => simp [Ends]
    | .diverge, h => exact absurd rfl h.1
  induction f with
  | zero => exact ⟨fun t _ h => by omega, fun t _ h => by omega⟩
  | succ f ih =>
    obtain ⟨iha, iho⟩ := ih
    constructor
    · intro t acc hf
      simp only [arrLoop]
      have hsl := skipBlanks_length t
      match hsb : skipBlanks t with
      | [] => simp [Ends]
      | c :: t1 =>
        rw [hsb] at hsl
        simp only [List.length_cons] at hsl
        simp only
        have next : ∀ v t', t'.length < t1.length + 1 → Ends t.length (arrLoop E f t' (acc ++ [v])) :=
          fun v t' h => wk (by omega) (iha t' (acc ++ [v]) (by omega))
        split
        · refine ⟨by simp, fun v t' h => ?_⟩
          simp at h; rw [← h.2]; omega
        · split
          · exact wk (by omega) (iha t1 acc (by omega))
          · split
            · exact (iho t1 {} (by omega)).bind (fun v t' h => next v t' (by omega))
            · split
              · exact (iha t1 [] (by omega)).bind (fun v t' h => next v t' (by omega))
              · exact hO _ _ _ _ _ (parseScalar_total E (f+1) c t1 (by omega)) (fun v t' h => next v t' (by simpa using h))
    · intro t st hf
      simp only [objLoop]
      have hsl := skipBlanks_length t
      match hsb : skipBlanks t with
      | [] => simp [Ends]
      | c :: t1 =>
        rw [hsb] at hsl
        simp only [List.length_cons] at hsl
        simp only
        have next : ∀ st t', t'.length < t1.length + 1 → Ends t.length (objLoop E f t' st) :=
          fun st t' h => wk (by omega) (iho t' st (by omega))
        have strs : ∀ (k : Bytes → OSt), Ends t.length (do let (s, t) ← strLoop (f+1) t1 []; objLoop E f t (k s)) := by
          intro k
          have := strLoop_total (f+1) t1 [] (by omega)
          match hs : strLoop (f+1) t1 [] with
          | .ok (s, t') =>
            have := this.2 s t' hs
            simpa using next (k s) t' (by omega)
          | .err e => simp [Ends]
          | .panic => simp [Ends]
          | .diverge => exact absurd hs this.1
        split
        · split
          · simp [Ends]
          · refine ⟨by simp, fun v t' h => ?_⟩
            simp at h; rw [← h.2]; omega
        · split
          · split
            · simp [Ends]
            · exact wk (by omega) (iho t1 st (by omega))
          · split
            · split
              · simp [Ends]
              · split
                · simp [Ends]
                · exact wk (by omega) (iho t1 _ (by omega))
            · split
              · split
                · split
                  · simp [Ends]
                  · exact strs (fun s => setMember st _ (.str s))
                · exact strs (fun s => { st with key := some s })
              · split
                · split
                  · simp [Ends]
                  · split
                    · simp [Ends]
                    · split
                      · exact (iho t1 {} (by omega)).bind (k := fun v t => objLoop E f t (setMember st _ v)) (fun v t' h => next _ t' (by omega))
                      · split
                        · exact (iha t1 [] (by omega)).bind (k := fun v t => objLoop E f t (setMember st _ v)) (fun v t' h => next _ t' (by omega))
                        · exact hO _ _ _ _ _ (parseScalar_total E (f+1) c t1 (by omega)) (fun v t' h => next _ t' (by simpa using h))
                · simp [Ends]

theorem parseValue_total (E : Env) (f : Nat) (c : UInt8) (t : Bytes) (hf : t.length < f) :
    Ends (c :: t).length (parseValue E f c t) := by
  unfold parseValue
  have wk : ∀ {n m : Nat} {r : R (V × Bytes)}, n ≤ m → Ends n r → Ends m r := fun h hr =>
    ⟨hr.1, fun v t' ht => Nat.lt_of_lt_of_le (hr.2 v t' ht) h⟩
  split
  · exact wk (by simp) ((loops_total E f).2 t {} hf)
  · split
    · exact wk (by simp) ((loops_total E f).1 t [] hf)
    · have h := parseScalar_total E f c t hf
      match hs : parseScalar E f c t with
      | .ok none => simp [Ends]
      | .ok (some (v, t')) => exact ⟨by simp, fun w u hw => by simp at hw; exact h.2 w u (by rw [hs, hw.1, hw.2])⟩
      | .err e => simp [Ends]
      | .panic => simp [Ends]
      | .diverge => exact absurd hs h.1

/-- the dispatch of unmarshal.go:21-65 on the buffer -/
theorem parseValueB_rel (E : Env) (f : Nat) (pre : Bytes) (c : UInt8) (t : Bytes) :
    ResRel pre (c :: t) (parseValue E f c t)
      (parseValueB E f (pre ++ c :: t) pre.length c) := by
  unfold parseValue parseValueB
  have e1 : pre ++ c :: t = (pre ++ [c]) ++ t := by simp
  have e2 : pre.length + 1 = (pre ++ [c]).length := by simp
  by_cases h1 : c = 0x7B
  · rw [if_pos h1, if_pos h1, e1, e2]
    have := (loops_rel E f).2 (pre ++ [c]) t {} ⟨by simp, trivial⟩
    exact this.trans (.same rfl (by rw [h1]; decide))
  · rw [if_neg h1, if_neg h1]
    by_cases h2 : c = 0x5B
    · rw [if_pos h2, if_pos h2, e1, e2]
      have := (loops_rel E f).1 (pre ++ [c]) t [] trivial
      exact this.trans (.same rfl (by rw [h2]; decide))
    · rw [if_neg h2, if_neg h2]
      have h := parseScalarB_rel E f pre c t
      match hs : parseScalar E f c t, h with
      | .ok none, h => simp only [ResRelO] at h; simp [h, ResRel]
      | .ok (some (v, t')), ⟨r, hb, hr⟩ => simp only [hb]; exact ⟨r, rfl, hr⟩
      | .err e, h => simp only [ResRelO] at h; simp [h, ResRel]
      | .diverge, h => simp only [ResRelO] at h; simp [h, ResRel]

/-- The whole parse: the buffer program returns the functional parser's result; it never panics and never runs out of fuel. -/
theorem unmarshalWithIterB_rel (E : Env) (s : Bytes) :
    match unmarshalWithIter E s with
    | .ok v => ∃ it pv, unmarshalWithIterB E s = .ok (it, pv) ∧ Spec.Decoded s it ∧ pv.upto it.length ∧ pv.res it = v
    | .err e => unmarshalWithIterB E s = .err e
    | .panic => False
    | .diverge => False := by
  unfold unmarshalWithIter unmarshalWithIterB
  match hsb : skipBlanks s with
  | [] =>
    obtain ⟨o, ho⟩ := skipBlanksB_nil [] s hsb
    simp only [List.nil_append, List.length_nil] at ho
    simp [ho]
  | c :: t =>
    obtain ⟨b, hb, hsk⟩ := skipBlanksB_cons [] s t c hsb
    simp only [List.nil_append, List.length_nil] at hsk
    have hlen : s.length = b.length + (1 + t.length) := by rw [hb]; simp; omega
    have hrd : rd s b.length = .ok c := by rw [hb, rd_app0]; rfl
    simp only [hsk, R.bind_ok, Bool.false_eq_true, if_false, hrd]
    have hrel := parseValueB_rel E (s.length + 1) b c t
    rw [← hb] at hrel
    have htot := parseValue_total E (s.length + 1) c t (by omega)
    match hv : parseValue E (s.length + 1) c t, hrel with
    | .ok (v, t'), ⟨r, hr, ext, pv, h1, h2, h3, h4⟩ =>
      subst h1
      rw [hr]
      simp only [R.bind_ok]
      match hs2 : skipBlanks t' with
      | [] =>
        obtain ⟨o, ho⟩ := skipBlanksB_nil (b ++ ext) t' hs2
        simp only [ho, R.bind_ok, if_true, R.pure_eq]
        refine ⟨_, pv, rfl, ?_, ?_, ?_⟩
        · obtain ⟨orig, ho1, ho2⟩ := h2
          rw [hb, ho1, ← List.append_assoc]
          exact ((Spec.Decoded.same (skipBlanks_noquote hsb hb)).append ho2).append (.same (skipBlanks_noquote' hs2))
        · exact PV.upto_mono (by simp) _ h3
        · rw [PV.res_stable _ _ _ h3, h4]
      | c2 :: t2 =>
        obtain ⟨b2, hb2, hsk2⟩ := skipBlanksB_cons (b ++ ext) t' t2 c2 hs2
        rw [hsk2]; simp
    | .err e, hrel =>
      simp only [ResRel] at hrel
      rw [hrel]; simp
    | .diverge, _ => exact absurd hv htot.1

end JV
