import Verif.Proofs.GrammarComplete
import Verif.Spec.Errors
/-! C73: the errors of the parser. -/
namespace JV
open Spec

/-! ### string literals -/

theorem strStep_piece {p d : Bytes} (h : LStr p d) (hp : p ≠ []) (r : Bytes) : ∃ c t q bs d', p = c :: t ++ q ∧ LStr q d' ∧
    (strStep c (t ++ (q ++ r)) = .ok (some (bs, q ++ r)) ∨ (q ++ r = [] ∧ strStep c (t ++ (q ++ r)) = .err .other)) := by
  cases h with
  | nil => exact absurd rfl hp
  | ascii c t d h1 h2 h3 ht =>
    refine ⟨c, [], t, [c], d, by simp, ht, .inl ?_⟩
    have : c ≤ 0x7F := by show c.toNat ≤ 0x7F; omega
    simp [strStep, h2, h3, this]
  | multi c m t d h1 h2 ht =>
    refine ⟨c, m, t, c :: m, d, by simp, ht, .inl ?_⟩
    obtain ⟨l2, l3, l4, lx, ly, lz⟩ := lead_facts c
    have lx := lx (by omega)
    unfold strStep
    rw [if_neg lx.2.1, if_neg lx.2.2, if_neg lx.1]
    have sh : ∀ n, m.length + 1 = n → shiftA (c :: (m ++ (t ++ r))) n = .ok (c :: m, t ++ r) := by
      intro n hn
      subst hn
      unfold shiftA
      rw [if_neg (by simp)]
      simp
    by_cases g2 : leadLen c = 2
    · rw [if_pos (l2.2 g2), sh 2 (by omega)]; rfl
    · rw [if_neg (fun h => g2 (l2.1 h))]
      by_cases g3 : leadLen c = 3
      · rw [if_pos (l3.2 g3), sh 3 (by omega)]; rfl
      · rw [if_neg (fun h => g3 (l3.1 h))]
        have g4 : leadLen c = 4 := by omega
        rw [if_pos (l4.2 g4), sh 4 (by omega)]; rfl
  | esc c b t d h1 ht =>
    refine ⟨0x5C, [c], t, [b], d, by simp, ht, .inl ?_⟩
    simp only [strStep, if_true, List.cons_append, List.nil_append, (simpleEsc_iff c b).2 h1, R.pure_eq]
  | uni e u t d h1 h2 ht =>
    obtain ⟨a, b, c, d', rfl, hx⟩ := h1.form
    refine ⟨0x5C, [0x75, a, b, c, d'], t, utf8 u, d, by simp, ht, ?_⟩
    have : simpleEsc 0x75 = none := by decide
    match hw : t ++ r with
    | x :: w =>
      left
      simp only [strStep, if_true, List.cons_append, List.nil_append, this, escUnicode, hx, R.bind_ok]
      rw [if_pos (by omega), runeBytes_lt h1.lt]; rfl
    | [] =>
      right
      exact ⟨rfl, by simp [strStep, this, escUnicode, List.cons_append]⟩
  | pair e1 e2 hi lo t d h1 h2 h3 h4 h5 h6 ht =>
    obtain ⟨a, b, c, d', rfl, hx⟩ := h1.form
    obtain ⟨a2, b2, c2, d2, rfl, hx2⟩ := h2.form
    refine ⟨0x5C, [0x75, a, b, c, d', 0x5C, 0x75, a2, b2, c2, d2], t, utf8four (0x10000 + (hi - 0xD800) * 1024 + (lo - 0xDC00)), d, by simp, ht, ?_⟩
    have : simpleEsc 0x75 = none := by decide
    have hsp := (surrogatePair_iff hi lo _).2 ⟨h5, h6, rfl⟩
    match hw : t ++ r with
    | x :: w =>
      left
      simp only [strStep, if_true, List.cons_append, List.nil_append, this, escUnicode, hx, R.bind_ok]
      rw [if_neg (by omega)]
      simp only [hx2, R.bind_ok, hsp, ne_eq, not_true_eq_false, if_false, R.pure_eq]
      rw [runeBytes_ge (by omega)]
    | [] =>
      right
      refine ⟨rfl, ?_⟩
      simp only [strStep, if_true, List.cons_append, List.nil_append, this, escUnicode, hx, R.bind_ok]
      rw [if_neg (by omega)]
      rfl

theorem hex4_err {a b c d : UInt8} {e : Err} (h : hex4 a b c d = .err e) : e = .other := by
  unfold hex4 at h
  split at h <;> simp at h
  exact h.symm

theorem hex4_np (a b c d : UInt8) : hex4 a b c d ≠ .panic ∧ hex4 a b c d ≠ .diverge := by
  unfold hex4
  split <;> simp

theorem surrogatePair_err {r x : Nat} {e : Err} (h : surrogatePair r x = .err e) : e = .illegalString ∧ ¬ (0xDC00 ≤ x ∧ x < 0xE000) := by
  unfold surrogatePair at h
  split at h
  · simp at h; exact ⟨h.symm, by omega⟩
  · split at h
    · simp at h; exact ⟨h.symm, by omega⟩
    · simp at h

theorem badUTF8_esc {m : Bytes} : ¬ BadUTF8 (0x5C :: m) := by
  rintro ⟨c, m', h1, h2, -⟩
  simp only [List.cons.injEq] at h1
  rw [← h1.1] at h2
  exact absurd h2 (by decide)

/-- what a surrogate pair looks like -/
theorem badPair_form {m : Bytes} (h : BadPair (0x5C :: m)) : ∃ a b c d a' b' c' d' y t hi lo, m = 0x75 :: a :: b :: c :: d :: 0x5C :: 0x75 :: a' :: b' :: c' :: d' :: y :: t ∧
    hex4 a b c d = .ok hi ∧ hex4 a' b' c' d' = .ok lo ∧ 0xD800 ≤ hi ∧ hi < 0xE000 ∧ ¬ (0xDC00 ≤ lo ∧ lo < 0xE000) := by
  obtain ⟨e1, e2, hi, lo, y, t, h1, h2, h3, h4, h5, h6⟩ := h
  obtain ⟨a, b, c, d, rfl, hx⟩ := h2.form
  obtain ⟨a', b', c', d', rfl, hx'⟩ := h3.form
  simp only [List.cons_append, List.nil_append, List.cons.injEq, true_and] at h1
  exact ⟨a, b, c, d, a', b', c', d', y, t, hi, lo, h1, hx, hx', h4, h5, h6⟩

theorem escUnicode_err {s : Bytes} {e : Err} (h : escUnicode s = .err e) :
    BadPair (0x5C :: 0x75 :: s) ∧ e = .illegalString ∨ ¬ BadPair (0x5C :: 0x75 :: s) ∧ e = .other := by
  have short : ∀ {u : Bytes} , u.length < 11 → ¬ BadPair (0x5C :: 0x75 :: u) := fun hl hb => by
    obtain ⟨a, b, c, d, a', b', c', d', y, t, hi, lo, h1, -⟩ := badPair_form hb
    simp only [List.cons.injEq, true_and] at h1
    rw [h1] at hl
    simp only [List.length_cons] at hl
    omega
  match s with
  | [] | [_] | [_, _] | [_, _, _] | [_, _, _, _] =>
    simp [escUnicode] at h
    exact .inr ⟨short (by simp), h.symm⟩
  | a :: b :: c :: d :: x :: t =>
    simp only [escUnicode] at h
    match hx : hex4 a b c d with
    | .panic => exact absurd hx (hex4_np ..).1
    | .diverge => exact absurd hx (hex4_np ..).2
    | .err e' =>
      rw [hx] at h
      have : e' = e := by simpa using h
      refine .inr ⟨fun hb => ?_, by rw [← this]; exact hex4_err hx⟩
      obtain ⟨a, b, c, d, a', b', c', d', y, t, hi, lo, h1, h2, -⟩ := badPair_form hb
      simp only [List.cons.injEq, true_and] at h1
      obtain ⟨rfl, rfl, rfl, rfl, -⟩ := h1
      rw [hx] at h2; cases h2
    | .ok r =>
      rw [hx] at h
      simp only [R.bind_ok] at h
      split at h
      · simp at h
      · rename_i hr
        have no : ∀ {Q : Prop}, e = .other → (∀ a' b' c' d' y t' lo, t = 0x75 :: a' :: b' :: c' :: d' :: y :: t' → x = 0x5C → hex4 a' b' c' d' = .ok lo → False) →
            (Q ∧ e = .illegalString) ∨ ¬ BadPair (0x5C :: 0x75 :: a :: b :: c :: d :: x :: t) ∧ e = .other := fun he hno => by
          refine .inr ⟨fun hb => ?_, he⟩
          obtain ⟨a, b, c, d, a', b', c', d', y, t', hi, lo, h1, -, h3, -⟩ := badPair_form hb
          simp only [List.cons.injEq, true_and] at h1
          exact hno a' b' c' d' y t' lo h1.2.2.2.2.2 h1.2.2.2.2.1 h3
        match t with
        | [] | [_] | [_, _] | [_, _, _] | [_, _, _, _] | [_, _, _, _, _] =>
          simp at h
          exact no h.symm (by intros; simp_all)
        | q :: a' :: b' :: c' :: d' :: y :: t' =>
          simp only at h
          split at h
          · rename_i hxx
            exact no (by simpa using h.symm) (fun _ _ _ _ _ _ _ _ h2 _ => hxx h2)
          · split at h
            · rename_i hq
              exact no (by simpa using h.symm) (fun _ _ _ _ _ _ _ h1 _ _ => by simp only [List.cons.injEq] at h1; exact hq h1.1)
            · rename_i hxx hq
              match hx' : hex4 a' b' c' d' with
              | .panic => exact absurd hx' (hex4_np ..).1
              | .diverge => exact absurd hx' (hex4_np ..).2
              | .err e' =>
                rw [hx'] at h
                have : e' = e := by simpa using h
                refine no (by rw [← this]; exact hex4_err hx') (fun _ _ _ _ _ _ _ h1 _ h3 => ?_)
                simp only [List.cons.injEq] at h1
                obtain ⟨-, rfl, rfl, rfl, rfl, -⟩ := h1
                rw [hx'] at h3; cases h3
              | .ok lo =>
                rw [hx'] at h
                simp only [R.bind_ok] at h
                match hs : surrogatePair r lo with
                | .ok u => rw [hs] at h; simp at h
                | .panic => rw [hs] at h; simp at h
                | .diverge => rw [hs] at h; simp at h
                | .err e' =>
                  rw [hs] at h
                  have he : e' = e := by simpa using h
                  obtain ⟨s1, s2⟩ := surrogatePair_err hs
                  have hx0 : x = 0x5C := by simpa using hxx
                  have hq0 : q = 0x75 := by simpa using hq
                  subst hx0 hq0
                  refine .inl ⟨⟨[0x5C, 0x75, a, b, c, d], [0x5C, 0x75, a', b', c', d'], r, lo, y, t', by simp, (hex4_iff ..).1 hx, (hex4_iff ..).1 hx', by omega, by omega, s2⟩, by rw [← he]; exact s1⟩

theorem strStep_err {c : UInt8} {t : Bytes} {e : Err} (h : strStep c t = .err e) :
    (BadUTF8 (c :: t) ∨ BadPair (c :: t)) ∧ e = .illegalString ∨ ¬ (BadUTF8 (c :: t) ∨ BadPair (c :: t)) ∧ e = .other := by
  unfold strStep at h
  split at h
  · rename_i hc
    subst hc
    have noPair : (∀ m, t ≠ 0x75 :: m) → ¬ BadPair (0x5C :: t) := fun hno hb => by
      obtain ⟨a, b, c, d, a', b', c', d', y, t', hi, lo, h1, -⟩ := badPair_form hb
      exact hno _ h1
    match t with
    | [] =>
      simp at h
      exact .inr ⟨fun hb => hb.elim badUTF8_esc (noPair (by simp)), h.symm⟩
    | x :: t =>
      simp only at h
      split at h
      · simp at h
      · rename_i hse
        split at h
        · rename_i hx
          subst hx
          match he : escUnicode t with
          | .ok r => rw [he] at h; simp at h
          | .panic => rw [he] at h; simp at h
          | .diverge => rw [he] at h; simp at h
          | .err e' =>
            rw [he] at h
            have : e' = e := by simpa using h
            rw [← this]
            rcases escUnicode_err he with ⟨h1, h2⟩ | ⟨h1, h2⟩
            · exact .inl ⟨.inr h1, h2⟩
            · exact .inr ⟨fun hb => hb.elim badUTF8_esc h1, h2⟩
        · rename_i hx
          refine .inr ⟨?_, by simpa using h.symm⟩
          rintro (hb | hb)
          · exact badUTF8_esc hb
          · exact noPair (fun m hm => by simp only [List.cons.injEq] at hm; exact hx hm.1) hb
  · rename_i hc
    split at h
    · simp at h
    · split at h
      · simp at h
      · rename_i h80
        have h80' : 0x80 ≤ c.toNat := by
          have : ¬ c.toNat ≤ 0x7F := h80
          omega
        obtain ⟨l2, l3, l4, lx, ly, lz⟩ := lead_facts c
        have sh : ∀ n, leadLen c = n → (do return some (← shiftA (c :: t) n) : R (Option (Bytes × Bytes))) = .err e →
            (BadUTF8 (c :: t) ∨ BadPair (c :: t)) ∧ e = .illegalString ∨ ¬ (BadUTF8 (c :: t) ∨ BadPair (c :: t)) ∧ e = .other := fun n hn hh => by
          unfold shiftA at hh
          split at hh
          · rename_i hl
            refine .inl ⟨.inl ⟨c, t, rfl, h80', .inr ?_⟩, by simpa using hh.symm⟩
            simp at hl; omega
          · simp at hh
        split at h
        · rename_i g; exact sh 2 (l2.1 g) h
        · split at h
          · rename_i g; exact sh 3 (l3.1 g) h
          · split at h
            · rename_i g; exact sh 4 (l4.1 g) h
            · rename_i g2 g3 g4
              refine .inl ⟨.inl ⟨c, t, rfl, h80', .inl ?_⟩, by simpa using h.symm⟩
              have n2 : leadLen c ≠ 2 := fun hh => g2 (l2.2 hh)
              have n3 : leadLen c ≠ 3 := fun hh => g3 (l3.2 hh)
              have n4 : leadLen c ≠ 4 := fun hh => g4 (l4.2 hh)
              unfold leadLen at *
              split <;> rename_i q
              · simp [q] at n2
              · split <;> rename_i q'
                · simp [q, q'] at n3
                · split <;> rename_i q''
                  · simp [q, q', q''] at n4
                  · rfl

theorem strLoop_err_sound {f : Nat} {s acc : Bytes} {e : Err} (h : strLoop f s acc = .err e) : BadStr s e := by
  induction f generalizing s acc with
  | zero => simp [strLoop] at h
  | succ f ih =>
    match s with
    | [] =>
      have : Err.other = e := by simpa [strLoop] using h
      refine ⟨[], [], [], rfl, .nil, fun p d t _ hp => ?_, by simp, .inr ⟨?_, this.symm⟩⟩
      · have := congrArg List.length hp; simp at this; exact List.eq_nil_of_length_eq_zero (by omega)
      · rintro (⟨c, m, h1, -⟩ | ⟨e1, e2, hi, lo, y, t, h1, -⟩)
        · cases h1
        · simp at h1
    | c :: t =>
      rw [strLoop] at h
      match hs : strStep c t with
      | .ok none => rw [hs] at h; simp at h
      | .ok (some (bs, t')) =>
        rw [hs] at h
        simp only [R.bind_ok] at h
        obtain ⟨txt, h1, h2⟩ := strStep_sound hs
        obtain ⟨p, d, u, rfl, h3, h4⟩ := ih h
        exact ⟨txt ++ p, bs ++ d, u, by rw [h1]; simp, h2 _ _ h3, h4⟩
      | .panic => rw [hs] at h; simp at h
      | .diverge => rw [hs] at h; simp at h
      | .err e' =>
        rw [hs] at h
        have he : e' = e := by simpa using h
        subst he
        have cl := strStep_err hs
        by_cases hst : Stuck (c :: t)
        · refine ⟨[], [], c :: t, rfl, .nil, hst, fun u hu => ?_, cl⟩
          simp only [List.cons.injEq] at hu
          rw [hu.1] at hs
          simp [strStep] at hs
        · simp only [Stuck, Classical.not_forall] at hst
          obtain ⟨p, d, r, h1, h2, h3⟩ := hst
          obtain ⟨c', t', q, bs, d', rfl, -, h4⟩ := strStep_piece h1 h3 r
          have : c = c' ∧ t = t' ++ (q ++ r) := by simpa using h2
          obtain ⟨rfl, rfl⟩ := this
          rcases h4 with h4 | ⟨h4, h5⟩
          · rw [hs] at h4; cases h4
          · rw [hs] at h5
            have he : e' = .other := by simpa using h5
            have hq : q = [] ∧ r = [] := by simpa using h4
            obtain ⟨rfl, rfl⟩ := hq
            refine ⟨c :: t' ++ [], d, [], by simp, h1, fun p d t _ hp => ?_, by simp, .inr ⟨?_, he⟩⟩
            · have := congrArg List.length hp; simp at this; exact List.eq_nil_of_length_eq_zero (by omega)
            · rintro (⟨c, m, h1, -⟩ | ⟨e1, e2, hi, lo, y, t, h1, -⟩)
              · cases h1
              · simp at h1

theorem strStep_np (c : UInt8) (t : Bytes) : strStep c t ≠ .panic ∧ strStep c t ≠ .diverge := by
  have := strStepB_rel [] [] t c
  exact ⟨fun h => by rw [h] at this; exact this, fun h => by rw [h] at this; exact this⟩

theorem strLoop_err_complete {s : Bytes} {e : Err} (h : BadStr s e) (f : Nat) (acc : Bytes) (hf : s.length < f) : strLoop f s acc = .err e := by
  obtain ⟨p, d, u, rfl, h1, h2, h3, h4⟩ := h
  induction f generalizing p d acc with
  | zero => omega
  | succ f ih =>
    by_cases hp : p = []
    · subst hp
      rw [List.nil_append]
      match u with
      | [] =>
        rcases h4 with ⟨hb | hb, -⟩ | ⟨-, rfl⟩
        · obtain ⟨c, m, hc, -⟩ := hb; cases hc
        · obtain ⟨e1, e2, hi, lo, y, t, hc, -⟩ := hb; simp at hc
        · rfl
      | c :: t =>
        rw [strLoop]
        match hs : strStep c t with
        | .ok none => exact absurd (by rw [strStep_none hs]) (h3 t)
        | .ok (some (bs, t')) =>
          obtain ⟨txt, g1, g2⟩ := strStep_sound hs
          have : txt = [] := h2 txt bs t' (by simpa using g2 [] [] .nil) g1
          subst this
          have hl := strStep_rest hs
          rw [List.nil_append] at g1
          rw [← g1] at hl
          simp only [List.length_cons] at hl
          omega
        | .panic => exact absurd hs (strStep_np c t).1
        | .diverge => exact absurd hs (strStep_np c t).2
        | .err e' =>
          rcases h4 with ⟨g1, rfl⟩ | ⟨g1, rfl⟩ <;> rcases strStep_err hs with ⟨k1, rfl⟩ | ⟨k1, rfl⟩
          · rfl
          · exact absurd g1 k1
          · exact absurd k1 g1
          · rfl
    · obtain ⟨c, t, q, bs, d', rfl, g1, g2⟩ := strStep_piece h1 hp u
      have e0 : c :: t ++ q ++ u = c :: (t ++ (q ++ u)) := by simp
      rw [e0, strLoop]
      rcases g2 with g2 | ⟨g2, g3⟩
      · rw [g2]
        simp only [R.bind_ok]
        exact ih _ q d' (by simp at hf ⊢; omega) g1
      · rw [g3]
        have hq : q = [] ∧ u = [] := by simpa using g2
        obtain ⟨rfl, rfl⟩ := hq
        rcases h4 with ⟨hb | hb, -⟩ | ⟨-, rfl⟩
        · obtain ⟨c, m, hc, -⟩ := hb; cases hc
        · obtain ⟨e1, e2, hi, lo, y, t, hc, -⟩ := hb; simp at hc
        · rfl

/-! ### numbers -/

theorem numStep_err {pos : Nat} {st : NumSt} {b : UInt8} : numStep pos st b ≠ .panic ∧ numStep pos st b ≠ .diverge ∧ ∀ e, numStep pos st b = .err e → e = .other := by
  unfold numStep
  repeat' split
  all_goals simp

theorem numLoop_err {s acc : Bytes} {st : NumSt} : numLoop acc st s ≠ .panic ∧ numLoop acc st s ≠ .diverge ∧ ∀ e, numLoop acc st s = .err e → e = .other := by
  induction s generalizing acc st with
  | nil => simp [numLoop]
  | cons b t ih =>
    rw [numLoop]
    match hs : numStep acc.length st b with
    | .ok none => simp
    | .ok (some st') => simpa using ih
    | .err e => simpa using numStep_err.2.2 e hs
    | .panic => exact absurd hs numStep_err.1
    | .diverge => exact absurd hs numStep_err.2.1

theorem finishNumber_err {E : Env} {st : NumSt} {text : Bytes} {c : UInt8} :
    finishNumber E st text c ≠ .panic ∧ finishNumber E st text c ≠ .diverge ∧ ∀ e, finishNumber E st text c = .err e → e = .other := by
  unfold finishNumber floatResult intResult negativeIntResult positiveIntResult
  repeat' split
  all_goals simp

theorem parseNumber_err {E : Env} {c : UInt8} {t : Bytes} :
    parseNumber E (c :: t) ≠ .panic ∧ parseNumber E (c :: t) ≠ .diverge ∧ ∀ e, parseNumber E (c :: t) = .err e → e = .other := by
  rw [parseNumber_eq]
  match hn : numLoop [] {} (c :: t) with
  | .ok (st, text, rest) =>
    simp only [R.bind_ok]
    match hf : finishNumber E st text c with
    | .ok n => simp
    | .err e => simpa using finishNumber_err.2.2 e hf
    | .panic => exact absurd hf finishNumber_err.1
    | .diverge => exact absurd hf finishNumber_err.2.1
  | .err e => simpa using numLoop_err.2.2 e hn
  | .panic => exact absurd hn numLoop_err.1
  | .diverge => exact absurd hn numLoop_err.2.1

theorem numTok_chars {E : Env} {t : Bytes} (h : NumTok E t) : ∀ x ∈ t, NumChar x := by
  obtain ⟨⟨c, u, rfl, -⟩, n, hn⟩ := h
  rw [parseNumber_eq] at hn
  match hl : numLoop [] {} (c :: u) with
  | .ok (st, text, rest) =>
    rw [hl] at hn
    simp only [R.bind_ok] at hn
    match hf : finishNumber E st text c with
    | .ok m =>
      rw [hf] at hn
      simp only [R.bind_ok, R.pure_eq, R.ok.injEq, Prod.mk.injEq] at hn
      obtain ⟨-, rfl, rfl⟩ := hn
      exact numLoop_chars hl
    | .err e => rw [hf] at hn; simp at hn
    | .panic => rw [hf] at hn; simp at hn
    | .diverge => rw [hf] at hn; simp at hn
  | .err e => rw [hl] at hn; simp at hn
  | .panic => rw [hl] at hn; simp at hn
  | .diverge => rw [hl] at hn; simp at hn

/-- a text has only one longest beginning of number characters -/
theorem numRun_unique {a b x y : Bytes} (h : a ++ x = b ++ y) (ha : ∀ c ∈ a, NumChar c) (hb : ∀ c ∈ b, NumChar c) (hx : NumEnd x) (hy : NumEnd y) : a = b := by
  induction a generalizing b with
  | nil =>
    match b with
    | [] => rfl
    | c :: b => exact absurd (hb c (by simp)) (hx c (b ++ y) h)
  | cons c a ih =>
    match b with
    | [] => exact absurd (ha c (by simp)) (hy c (a ++ x) h.symm)
    | c' :: b =>
      simp only [List.cons_append, List.cons.injEq] at h
      rw [h.1, ih h.2 (fun z hz => ha z (by simp [hz])) (fun z hz => hb z (by simp [hz]))]

theorem numRun_exists (t : Bytes) : ∃ a x, t = a ++ x ∧ (∀ c ∈ a, NumChar c) ∧ NumEnd x := by
  induction t with
  | nil => exact ⟨[], [], rfl, by simp, fun c t h => by cases h⟩
  | cons c t ih =>
    by_cases hc : NumChar c
    · obtain ⟨a, x, rfl, h1, h2⟩ := ih
      exact ⟨c :: a, x, rfl, fun z hz => (List.mem_cons.1 hz).elim (fun h => h ▸ hc) (h1 z), h2⟩
    · exact ⟨[], c :: t, rfl, by simp, fun c' t' h => by simp only [List.cons.injEq] at h; rw [← h.1]; exact hc⟩

theorem numStart_iff (c : UInt8) : isNumStart c = true ↔ NumStart c := by
  unfold isNumStart NumStart
  rw [Bool.or_eq_true, (numChar_facts c).1]
  simp

theorem numStart_char {c : UInt8} (h : NumStart c) : NumChar c := by
  rcases h with h | h
  · exact .inl h
  · exact .inr (.inr (.inl h))

theorem parseNumber_err_iff {E : Env} {c : UInt8} {t : Bytes} {e : Err} (hc : isNumStart c = true) :
    parseNumber E (c :: t) = .err e ↔ e = .other ∧ ∃ a r, t = a ++ r ∧ (∀ x ∈ a, NumChar x) ∧ NumEnd r ∧ ¬ NumTok E (c :: a) := by
  constructor
  · intro h
    obtain ⟨a, r, rfl, h1, h2⟩ := numRun_exists t
    refine ⟨parseNumber_err.2.2 e h, a, r, rfl, h1, h2, fun hn => ?_⟩
    rw [← List.cons_append, parseNumber_join hn h2] at h
    cases h
  · rintro ⟨rfl, a, r, rfl, h1, h2, h3⟩
    match hp : parseNumber E (c :: (a ++ r)) with
    | .ok (n, text, rest) =>
      obtain ⟨g1, g2, g3, -⟩ := parseNumber_split hc hp
      have : c :: a = text := numRun_unique (x := r) (y := rest) g1 (fun z hz => by
        rcases List.mem_cons.1 hz with rfl | hz
        · exact numStart_char ((numStart_iff _).1 hc)
        · exact h1 z hz) (numTok_chars g3) h2 g2
      rw [this] at h3
      exact absurd g3 h3
    | .err e => rw [parseNumber_err.2.2 e hp]
    | .panic => exact absurd hp parseNumber_err.1
    | .diverge => exact absurd hp parseNumber_err.2.1

/-! ### scalars -/

theorem parseLit_err {s lit : Bytes} {e1 e2 e : Err} : parseLit s lit e1 e2 = .err e ↔
    (s.length < lit.length ∧ e = e1) ∨ (lit.length ≤ s.length ∧ (∀ r, s ≠ lit ++ r) ∧ e = e2) := by
  unfold parseLit
  split
  · rename_i h
    simp only [R.err.injEq]
    constructor
    · intro he; exact .inl ⟨h, he.symm⟩
    · rintro (⟨-, he⟩ | ⟨hl, -⟩)
      · exact he.symm
      · omega
  · rename_i h
    split
    · rename_i h2
      simp only [reduceCtorEq, false_iff]
      rintro (⟨hl, -⟩ | ⟨-, hr, -⟩)
      · omega
      · refine hr (s.drop lit.length) ?_
        have := List.take_append_drop lit.length s
        rw [h2] at this
        exact this.symm
    · rename_i h2
      simp only [R.err.injEq]
      constructor
      · intro he
        refine .inr ⟨by omega, fun r hr => h2 (by rw [hr]; simp), he.symm⟩
      · rintro (⟨hl, -⟩ | ⟨-, -, he⟩)
        · omega
        · exact he.symm

theorem valStart_cases (c : UInt8) : (isNumStart c = true ∨ c = 0x22 ∨ c = 0x74 ∨ c = 0x66 ∨ c = 0x6E ∨ c = 0x5B ∨ c = 0x7B) ↔ ValStart c := by
  unfold ValStart
  rw [numStart_iff]
  grind

theorem parseScalar_err_sound {E : Env} {f : Nat} {c : UInt8} {t : Bytes} {e : Err} (h : parseScalar E f c t = .err e) : VErr (NumTok E) (c :: t) e := by
  unfold parseScalar at h
  have hlit : ∀ (lit : Bytes) (e1 e2 : Err) (v' : V),
      (do let rest ← parseLit (c :: t) lit e1 e2; pure (some (v', rest)) : R (Option (V × Bytes))) = .err e → parseLit (c :: t) lit e1 e2 = .err e := fun lit e1 e2 v' hh => by
    match hp : parseLit (c :: t) lit e1 e2 with
    | .ok r => rw [hp] at hh; simp at hh
    | .err e' => rw [hp] at hh; simpa using hh
    | .panic => rw [hp] at hh; simp at hh
    | .diverge => rw [hp] at hh; simp at hh
  split at h
  · rename_i hc
    match hp : parseNumber E (c :: t) with
    | .ok (n, text, rest) => rw [hp] at h; simp at h
    | .panic => rw [hp] at h; simp at h
    | .diverge => rw [hp] at h; simp at h
    | .err e' =>
      rw [hp] at h
      have : e' = e := by simpa using h
      subst this
      obtain ⟨rfl, a, r, rfl, h1, h2, h3⟩ := (parseNumber_err_iff hc).1 hp
      exact .num c a r ((numStart_iff c).1 hc) h1 h2 h3
  · split at h
    · rename_i hc
      subst hc
      match hp : strLoop f t [] with
      | .ok (s, rest) => rw [hp] at h; simp at h
      | .panic => rw [hp] at h; simp at h
      | .diverge => rw [hp] at h; simp at h
      | .err e' =>
        rw [hp] at h
        have : e' = e := by simpa using h
        subst this
        exact .str t e' (strLoop_err_sound hp)
    · split at h
      · rename_i hc
        subst hc
        rcases parseLit_err.1 (hlit _ _ _ _ h) with ⟨h1, rfl⟩ | ⟨h1, h2, rfl⟩
        · refine .tru t fun r hr => ?_
          rw [hr] at h1; simp [litTrue] at h1; omega
        · exact .tru t fun r hr => h2 r (by rw [hr]; rfl)
      · split at h
        · rename_i hc
          subst hc
          rcases parseLit_err.1 (hlit _ _ _ _ h) with ⟨h1, rfl⟩ | ⟨h1, h2, rfl⟩
          · refine .fls t fun r hr => ?_
            rw [hr] at h1; simp [litFalse] at h1; omega
          · exact .fls t fun r hr => h2 r (by rw [hr]; rfl)
        · split at h
          · rename_i hc
            subst hc
            rcases parseLit_err.1 (hlit _ _ _ _ h) with ⟨h1, rfl⟩ | ⟨h1, h2, rfl⟩
            · exact .null_short t (by simp [litNull] at h1; omega)
            · exact .null t (by simp [litNull] at h1; omega) fun r hr => h2 r (by rw [hr]; rfl)
          · simp at h

theorem parseScalar_none {E : Env} {f : Nat} {c : UInt8} {t : Bytes} : parseScalar E f c t = .ok none ↔ (c = 0x5B ∨ c = 0x7B ∨ ¬ ValStart c) := by
  rw [← valStart_cases]
  unfold parseScalar
  have hb : ∀ {α : Type} (x : R α) (k : α → V × Bytes), (do let y ← x; pure (some (k y)) : R (Option (V × Bytes))) ≠ .ok none := by
    intro α x k; cases x <;> simp
  have n1 : isNumStart 0x5B = false := by decide
  have n2 : isNumStart 0x7B = false := by decide
  split
  · rename_i hc
    refine ⟨fun h => absurd h ?_, ?_⟩
    · cases parseNumber E (c :: t) <;> simp
    · rintro (rfl | rfl | h)
      · rw [n1] at hc; cases hc
      · rw [n2] at hc; cases hc
      · exact absurd (.inl hc) h
  · split
    · rename_i hc
      subst hc
      refine ⟨fun h => absurd h ?_, ?_⟩
      · cases strLoop f t [] <;> simp
      · rintro (h | h | h)
        · exact absurd h (by decide)
        · exact absurd h (by decide)
        · exact absurd (.inr (.inl rfl)) h
    · split
      · rename_i hc
        subst hc
        refine ⟨fun h => absurd h (hb _ _), ?_⟩
        rintro (h | h | h)
        · exact absurd h (by decide)
        · exact absurd h (by decide)
        · exact absurd (.inr (.inr (.inl rfl))) h
      · split
        · rename_i hc
          subst hc
          refine ⟨fun h => absurd h (hb _ _), ?_⟩
          rintro (h | h | h)
          · exact absurd h (by decide)
          · exact absurd h (by decide)
          · exact absurd (.inr (.inr (.inr (.inl rfl)))) h
        · split
          · rename_i hc
            subst hc
            refine ⟨fun h => absurd h (hb _ _), ?_⟩
            rintro (h | h | h)
            · exact absurd h (by decide)
            · exact absurd h (by decide)
            · exact absurd (.inr (.inr (.inr (.inr (.inl rfl))))) h
          · simp only [R.pure_eq, true_iff]
            grind

/-! ### arrays and objects -/

theorem aerr_sep {n : Bytes → Prop} {p s : Bytes} {e : Err} (hp : Spec.Sep p) (h : AErr n s e) : AErr n (p ++ s) e := by
  cases h with
  | eof s hs => exact .eof _ (hp.append hs)
  | elem s u e hs h1 h2 => rw [← List.append_assoc]; exact .elem _ _ _ (hp.append hs) h1 h2
  | next s t ts v e hs h1 h2 h3 =>
    have : p ++ (s ++ t ++ ts) = (p ++ s) ++ t ++ ts := by simp
    rw [this]; exact .next _ _ _ _ _ (hp.append hs) h1 h2 h3

theorem oerr_sep {n : Bytes → Prop} {p s : Bytes} {e : Err} (hp : Spec.Sep p) (h : OErr n s e) : OErr n (p ++ s) e := by
  cases h with
  | eof s hs => exact .eof _ (hp.append hs)
  | no_key s c t hs h1 => rw [← List.append_assoc]; exact .no_key _ _ _ (hp.append hs) h1
  | key_char s c t hs h1 h2 h3 h4 => rw [← List.append_assoc]; exact .key_char _ _ _ (hp.append hs) h1 h2 h3 h4
  | key s t e hs h1 => rw [← List.append_assoc]; exact .key _ _ _ (hp.append hs) h1
  | no_colon s k d b u hs h1 h2 h3 =>
    have : p ++ (s ++ 0x22 :: k ++ 0x22 :: b ++ u) = (p ++ s) ++ 0x22 :: k ++ 0x22 :: b ++ u := by simp
    rw [this]; exact .no_colon _ _ _ _ _ (hp.append hs) h1 h2 h3
  | colon_char s k d b c t hs h1 h2 h3 h4 h5 h6 =>
    have : p ++ (s ++ 0x22 :: k ++ 0x22 :: b ++ c :: t) = (p ++ s) ++ 0x22 :: k ++ 0x22 :: b ++ c :: t := by simp
    rw [this]; exact .colon_char _ _ _ _ _ _ (hp.append hs) h1 h2 h3 h4 h5 h6
  | no_value s k d b1 b2 u hs h1 h2 h3 h4 =>
    have : p ++ (s ++ 0x22 :: k ++ 0x22 :: b1 ++ 0x3A :: b2 ++ u) = (p ++ s) ++ 0x22 :: k ++ 0x22 :: b1 ++ 0x3A :: b2 ++ u := by simp
    rw [this]; exact .no_value _ _ _ _ _ _ (hp.append hs) h1 h2 h3 h4
  | value s k d b1 b2 u e hs h1 h2 h3 h4 h5 =>
    have : p ++ (s ++ 0x22 :: k ++ 0x22 :: b1 ++ 0x3A :: b2 ++ u) = (p ++ s) ++ 0x22 :: k ++ 0x22 :: b1 ++ 0x3A :: b2 ++ u := by simp
    rw [this]; exact .value _ _ _ _ _ _ _ (hp.append hs) h1 h2 h3 h4 h5
  | next s k b1 b2 t ts d v e hs h1 h2 h3 h4 h5 h6 =>
    have : p ++ (s ++ 0x22 :: k ++ 0x22 :: b1 ++ 0x3A :: b2 ++ t ++ ts) = (p ++ s) ++ 0x22 :: k ++ 0x22 :: b1 ++ 0x3A :: b2 ++ t ++ ts := by simp
    rw [this]; exact .next _ _ _ _ _ _ _ _ _ (hp.append hs) h1 h2 h3 h4 h5 h6

/-- the error in what follows a key -/
def KErr (n : Bytes → Prop) (s : Bytes) (e : Err) : Prop := ∀ sp k d, Spec.Sep sp → LStr k d → OErr n (sp ++ 0x22 :: k ++ 0x22 :: s) e
/-- the error in what follows a colon -/
def CErr (n : Bytes → Prop) (s : Bytes) (e : Err) : Prop := ∀ sp k d b, Spec.Sep sp → LStr k d → Blank b → OErr n (sp ++ 0x22 :: k ++ 0x22 :: b ++ 0x3A :: s) e

theorem notSep_one {c : UInt8} (h1 : isBlank c = false) (h2 : c ≠ 0x2C) : ¬ Spec.Sep [c] := fun h => by
  have := h c (by simp)
  have h3 : ¬ (isBlank c = true) := by simp [h1]
  rw [isBlank_iff] at h3
  grind

theorem notSep_facts {c : UInt8} (h : ¬ Spec.Sep [c]) : isBlank c = false ∧ c ≠ 0x2C := by
  constructor
  · cases hb : isBlank c with
    | false => rfl
    | true =>
      exfalso
      rw [isBlank_iff] at hb
      exact h fun x hx => by simp at hx; subst hx; grind
  · rintro rfl
    exact h Sep_comma

theorem loops_err_sound (E : Env) (f : Nat) :
    (∀ s acc e, arrLoop E f s acc = .err e → AErr (NumTok E) s e) ∧
    (∀ s st e, objLoop E f s st = .err e →
      match st.key, st.colon with
      | none, false => OErr (NumTok E) s e
      | some _, false => KErr (NumTok E) s e
      | some _, true => CErr (NumTok E) s e
      | none, true => True) := by
  induction f with
  | zero => exact ⟨fun s acc e h => by simp [arrLoop] at h, fun s acc e h => by simp [objLoop] at h⟩
  | succ f ih =>
    obtain ⟨iha, iho⟩ := ih
    have iho0 : ∀ {s : Bytes} {st : OSt} {e : Err}, st.key = none → st.colon = false → objLoop E f s st = .err e → OErr (NumTok E) s e := fun h1 h2 h3 => by
      have := iho _ _ _ h3; rw [h1, h2] at this; exact this
    have objS : ∀ {s : Bytes} {w : V} {t1 : Bytes}, objLoop E f s {} = .ok (w, t1) → ∃ body ms, s = body ++ t1 ∧ LMems (NumTok E) body ms := fun h => by
      obtain ⟨body, ms, h1, h2, -⟩ := (loops_sound E f).2 _ _ _ _ h; exact ⟨body, ms, h1, h2⟩
    have arrS : ∀ {s : Bytes} {acc : List V} {w : V} {t1 : Bytes}, arrLoop E f s acc = .ok (w, t1) → ∃ body ms, s = body ++ t1 ∧ LElems (NumTok E) body ms := fun h => by
      obtain ⟨body, ms, h1, h2, -⟩ := (loops_sound E f).1 _ _ _ _ h; exact ⟨body, ms, h1, h2⟩
    constructor
    · intro s acc e h
      rw [arrLoop] at h
      obtain ⟨b, hb, hbl, hnb⟩ := skipBlanks_spec s
      match hsb : skipBlanks s with
      | [] =>
        rw [hsb] at h hb
        simp at h hb
        rw [hb, ← h]; exact .eof _ hbl.sep
      | c :: t =>
        have hnb := hnb c t hsb
        rw [hsb] at hb
        simp only [hsb] at h
        split at h
        · simp at h
        · rename_i h5D
          split at h
          · rename_i hc
            have := iha _ _ _ h
            have e0 : s = (b ++ [0x2C]) ++ t := by rw [hb, hc]; simp
            rw [e0]; exact aerr_sep (hbl.sep.append Sep_comma) this
          · rename_i h2C
            have ok1 : ∀ c' t', c :: t = c' :: t' → ¬ Spec.Sep [c'] ∧ c' ≠ 0x5D := fun c' t' hh => by
              simp only [List.cons.injEq] at hh
              rw [← hh.1]; exact ⟨notSep_one hnb h2C, h5D⟩
            have bad : ∀ {e}, VErr (NumTok E) (c :: t) e → AErr (NumTok E) s e := fun hv => by rw [hb]; exact .elem _ _ _ hbl.sep hv ok1
            have next : ∀ (txt : Bytes) (j : J) (t1 : Bytes) (acc' : List V), c :: t = txt ++ t1 → LVal (NumTok E) txt j → Follow j t1 →
                arrLoop E f t1 acc' = .err e → AErr (NumTok E) s e := fun txt j t1 acc' h1 h2 h3 h4 => by
              rw [hb, h1, ← List.append_assoc]; exact .next _ _ _ _ _ hbl.sep h2 h3 (iha _ _ _ h4)
            split at h
            · rename_i hc
              subst hc
              match ho : objLoop E f t {} with
              | .ok (w, t1) =>
                rw [ho] at h
                simp only [R.bind_ok] at h
                obtain ⟨body, ms, rfl, hm⟩ := objS ho
                exact next (0x7B :: body) (.obj ms) t1 _ rfl (.obj _ _ hm) trivial h
              | .err e' =>
                rw [ho] at h
                have : e' = e := by simpa using h
                subst this
                exact bad (.obj _ _ (iho0 rfl rfl ho))
              | .panic => rw [ho] at h; simp at h
              | .diverge => rw [ho] at h; simp at h
            · split at h
              · rename_i hc
                subst hc
                match ho : arrLoop E f t [] with
                | .ok (w, t1) =>
                  rw [ho] at h
                  simp only [R.bind_ok] at h
                  obtain ⟨body, ms, rfl, hm⟩ := arrS ho
                  exact next (0x5B :: body) (.arr ms) t1 _ rfl (.arr _ _ hm) trivial h
                | .err e' =>
                  rw [ho] at h
                  have : e' = e := by simpa using h
                  subst this
                  exact bad (.arr _ _ (iha _ _ _ ho))
                | .panic => rw [ho] at h; simp at h
                | .diverge => rw [ho] at h; simp at h
              · rename_i h7B h5B
                match ho : parseScalar E (f+1) c t with
                | .ok (some (w, t1)) =>
                  rw [ho] at h
                  simp only [R.bind_ok] at h
                  obtain ⟨txt, j, h1, h2, -, h3⟩ := parseScalar_sound ho
                  exact next txt j t1 _ h1 h2 h3 h
                | .ok none =>
                  rw [ho] at h
                  have : Err.rawBytesUnrecognized = e := by simpa using h
                  subst this
                  rcases parseScalar_none.1 ho with h' | h' | h'
                  · exact absurd h' h5B
                  · exact absurd h' h7B
                  · exact bad (.char _ _ h')
                | .err e' =>
                  rw [ho] at h
                  have : e' = e := by simpa using h
                  subst this
                  exact bad (parseScalar_err_sound ho)
                | .panic => rw [ho] at h; simp at h
                | .diverge => rw [ho] at h; simp at h
    · intro s st e h
      rw [objLoop] at h
      obtain ⟨b, hb, hbl, hnb⟩ := skipBlanks_spec s
      match hsb : skipBlanks s with
      | [] =>
        rw [hsb] at h hb
        simp at h hb
        subst hb
        rw [← h]
        match hk : st.key, hcol : st.colon with
        | none, false => exact .eof _ hbl.sep
        | some _, false =>
          intro sp k d h1 h2
          have := OErr.no_colon (numTok := NumTok E) sp k d s [] h1 h2 hbl (fun c t hh => by cases hh)
          simpa using this
        | some _, true =>
          intro sp k d b h1 h2 h3
          have := OErr.no_value (numTok := NumTok E) sp k d b s [] h1 h2 h3 hbl (fun c t hh => by cases hh)
          simpa using this
        | none, true => trivial
      | c :: t =>
        have hnb := hnb c t hsb
        rw [hsb] at hb
        simp only [hsb] at h
        have one : ∀ {P : UInt8 → Prop}, P c → ∀ c' t', c :: t = c' :: t' → P c' := fun hp c' t' hh => by
          simp only [List.cons.injEq] at hh
          rw [← hh.1]; exact hp
        -- the errors after a key and after a colon
        have noColon : (c = 0x2C ∨ c = 0x7D ∨ ValStart c) → KErr (NumTok E) s .notObjectValue := fun hc sp k d h1 h2 => by
          have := OErr.no_colon (numTok := NumTok E) sp k d b (c :: t) h1 h2 hbl (one (P := fun c => c = 0x2C ∨ c = 0x7D ∨ ValStart c) hc)
          rw [hb]; simpa using this
        have noValue : (c = 0x2C ∨ c = 0x7D ∨ c = 0x3A) → CErr (NumTok E) s .notObjectValue := fun hc sp k d b' h1 h2 h3 => by
          have := OErr.no_value (numTok := NumTok E) sp k d b' b (c :: t) h1 h2 h3 hbl (one (P := fun c => c = 0x2C ∨ c = 0x7D ∨ c = 0x3A) hc)
          rw [hb]; simpa using this
        split at h
        · rename_i hc
          match hk : st.key, hcol : st.colon with
          | none, false => rw [hk] at h; simp at h
          | none, true => trivial
          | some _, false =>
            rw [hk] at h
            have : Err.notObjectValue = e := by simpa using h
            subst this
            exact noColon (.inr (.inl hc))
          | some _, true =>
            rw [hk] at h
            have : Err.notObjectValue = e := by simpa using h
            subst this
            exact noValue (.inr (.inl hc))
        · rename_i h7D
          split at h
          · rename_i hc
            match hk : st.key, hcol : st.colon with
            | none, false =>
              rw [hk] at h
              have := iho0 hk hcol h
              have e0 : s = (b ++ [0x2C]) ++ t := by rw [hb, hc]; simp
              rw [e0]; exact oerr_sep (hbl.sep.append Sep_comma) this
            | none, true => trivial
            | some _, false =>
              rw [hk] at h
              have : Err.notObjectValue = e := by simpa using h
              subst this
              exact noColon (.inl hc)
            | some _, true =>
              rw [hk] at h
              have : Err.notObjectValue = e := by simpa using h
              subst this
              exact noValue (.inl hc)
          · rename_i h2C
            split at h
            · rename_i hc
              match hk : st.key, hcol : st.colon with
              | none, false =>
                rw [hk, hcol] at h
                have : Err.notObjectValue = e := by simpa using h
                subst this
                rw [hb]; exact .no_key _ _ _ hbl.sep (.inl hc)
              | none, true => trivial
              | some _, false =>
                rw [hk, hcol] at h
                simp only [Bool.false_eq_true, if_false] at h
                have := iho _ _ _ h
                simp only [hk] at this
                intro sp k d h1 h2
                have := this sp k d b h1 h2 hbl
                rw [hb, hc]; simpa using this
              | some _, true =>
                rw [hk, hcol] at h
                have : Err.notObjectValue = e := by simpa using h
                subst this
                exact noValue (.inr (.inr hc))
            · rename_i h3A
              have ok1 : ∀ c' t', c :: t = c' :: t' → ¬ Spec.Sep [c'] ∧ c' ≠ 0x7D ∧ c' ≠ 0x3A := one (P := fun c => ¬ Spec.Sep [c] ∧ c ≠ 0x7D ∧ c ≠ 0x3A) ⟨notSep_one hnb h2C, h7D, h3A⟩
              have bad : ∀ {e}, VErr (NumTok E) (c :: t) e → CErr (NumTok E) s e := fun hv sp k d b' h1 h2 h3 => by
                have := OErr.value sp k d b' b (c :: t) _ h1 h2 h3 hbl hv ok1
                rw [hb]; simpa using this
              have next : ∀ (txt : Bytes) (j : J) (t1 : Bytes) (st' : OSt), c :: t = txt ++ t1 → LVal (NumTok E) txt j → Follow j t1 → st'.key = none → st'.colon = false →
                  objLoop E f t1 st' = .err e → CErr (NumTok E) s e := fun txt j t1 st' h1 h2 h3 h4 h5 h6 sp k d b' h7 h8 h9 => by
                have := OErr.next sp k b' b txt t1 d j e h7 h8 h9 hbl h2 h3 (iho0 h4 h5 h6)
                rw [hb, h1]; simpa using this
              split at h
              · rename_i hc
                match hk : st.key, hcol : st.colon with
                | none, false =>
                  rw [hk] at h
                  simp only at h
                  match ho : strLoop (f+1) t [] with
                  | .ok (k, t1) =>
                    rw [ho] at h
                    simp only [R.bind_ok] at h
                    have := iho _ _ _ h
                    simp only [hcol] at this
                    obtain ⟨body, dd, rfl, -, hs⟩ := strLoop_sound ho
                    have := this b body dd hbl.sep hs
                    rw [hb, hc]; simpa using this
                  | .err e' =>
                    rw [ho] at h
                    have : e' = e := by simpa using h
                    subst this
                    rw [hb, hc]; exact .key _ _ _ hbl.sep (strLoop_err_sound ho)
                  | .panic => rw [ho] at h; simp at h
                  | .diverge => rw [ho] at h; simp at h
                | none, true => trivial
                | some _, false =>
                  rw [hk, hcol] at h
                  have : Err.notObjectValue = e := by simpa using h
                  subst this
                  exact noColon (.inr (.inr (.inr (.inl hc))))
                | some k, true =>
                  rw [hk, hcol] at h
                  simp only [Bool.not_true, Bool.false_eq_true, if_false] at h
                  match ho : strLoop (f+1) t [] with
                  | .ok (v, t1) =>
                    rw [ho] at h
                    simp only [R.bind_ok] at h
                    obtain ⟨body, dd, rfl, -, hs⟩ := strLoop_sound ho
                    exact next (0x22 :: body ++ [0x22]) (.str dd) t1 _ (by rw [hc]; simp) (.str _ _ hs) trivial rfl rfl h
                  | .err e' =>
                    rw [ho] at h
                    have : e' = e := by simpa using h
                    subst this
                    exact bad (by rw [hc]; exact .str _ _ (strLoop_err_sound ho))
                  | .panic => rw [ho] at h; simp at h
                  | .diverge => rw [ho] at h; simp at h
              · rename_i h22
                split at h
                · rename_i hc
                  have hvs : ValStart c := (valStart_cases c).1 (by grind)
                  match hk : st.key, hcol : st.colon with
                  | none, false =>
                    rw [hk] at h
                    have : Err.notObjectValue = e := by simpa using h
                    subst this
                    rw [hb]; exact .no_key _ _ _ hbl.sep (.inr ⟨hvs, h22⟩)
                  | none, true => trivial
                  | some _, false =>
                    rw [hk, hcol] at h
                    have : Err.notObjectValue = e := by simpa using h
                    subst this
                    exact noColon (.inr (.inr hvs))
                  | some k, true =>
                    rw [hk, hcol] at h
                    simp only [Bool.not_true, Bool.false_eq_true, if_false] at h
                    split at h
                    · rename_i hc
                      subst hc
                      match ho : objLoop E f t {} with
                      | .ok (w, t1) =>
                        rw [ho] at h
                        simp only [R.bind_ok] at h
                        obtain ⟨body, ms, rfl, hm⟩ := objS ho
                        exact next (0x7B :: body) (.obj ms) t1 _ rfl (.obj _ _ hm) trivial rfl rfl h
                      | .err e' =>
                        rw [ho] at h
                        have : e' = e := by simpa using h
                        subst this
                        exact bad (.obj _ _ (iho0 rfl rfl ho))
                      | .panic => rw [ho] at h; simp at h
                      | .diverge => rw [ho] at h; simp at h
                    · split at h
                      · rename_i hc
                        subst hc
                        match ho : arrLoop E f t [] with
                        | .ok (w, t1) =>
                          rw [ho] at h
                          simp only [R.bind_ok] at h
                          obtain ⟨body, ms, rfl, hm⟩ := arrS ho
                          exact next (0x5B :: body) (.arr ms) t1 _ rfl (.arr _ _ hm) trivial rfl rfl h
                        | .err e' =>
                          rw [ho] at h
                          have : e' = e := by simpa using h
                          subst this
                          exact bad (.arr _ _ (iha _ _ _ ho))
                        | .panic => rw [ho] at h; simp at h
                        | .diverge => rw [ho] at h; simp at h
                      · rename_i h7B h5B
                        match ho : parseScalar E (f+1) c t with
                        | .ok (some (w, t1)) =>
                          rw [ho] at h
                          simp only [R.bind_ok] at h
                          obtain ⟨txt, j, h1, h2, -, h3⟩ := parseScalar_sound ho
                          exact next txt j t1 _ h1 h2 h3 rfl rfl h
                        | .ok none =>
                          rcases parseScalar_none.1 ho with h' | h' | h'
                          · exact absurd h' h5B
                          · exact absurd h' h7B
                          · exact absurd hvs h'
                        | .err e' =>
                          rw [ho] at h
                          have : e' = e := by simpa using h
                          subst this
                          exact bad (parseScalar_err_sound ho)
                        | .panic => rw [ho] at h; simp at h
                        | .diverge => rw [ho] at h; simp at h
                · rename_i hc
                  have hvs : ¬ ValStart c := fun hv => by
                    have := (valStart_cases c).2 hv
                    grind
                  have : Err.rawBytesUnrecognized = e := by simpa using h
                  subst this
                  match hk : st.key, hcol : st.colon with
                  | none, false => rw [hb]; exact .key_char _ _ _ hbl.sep (notSep_one hnb h2C) h7D h3A hvs
                  | none, true => trivial
                  | some _, false =>
                    intro sp k d h1 h2
                    have := OErr.colon_char (numTok := NumTok E) sp k d b c t h1 h2 hbl (notSep_one hnb h2C) h7D h3A hvs
                    rw [hb]; simpa using this
                  | some _, true => exact bad (.char _ _ hvs)

/-! ### the other direction -/

/-- reading a value that begins here ends in `e` -/
def ValErrOK (E : Env) (u : Bytes) (e : Err) : Prop := ∃ c t, u = c :: t ∧
  ((c = 0x7B ∧ ∀ f, t.length < f → objLoop E f t {} = .err e) ∨
   (c = 0x5B ∧ ∀ f, t.length < f → arrLoop E f t [] = .err e) ∨
   (c ≠ 0x7B ∧ c ≠ 0x5B ∧ ValStart c ∧ ∀ f, t.length < f → parseScalar E f c t = .err e) ∨
   (¬ ValStart c ∧ e = .rawBytesUnrecognized))

theorem obj_key {E : Env} {s k d u : Bytes} (hs : Spec.Sep s) (hk : LStr k d) (f : Nat) (st : OSt) (h1 : st.key = none) (h2 : st.colon = false)
    (hf : (s ++ 0x22 :: k ++ 0x22 :: u).length < f) : ∃ f', u.length < f' ∧ objLoop E f (s ++ 0x22 :: k ++ 0x22 :: u) st = objLoop E f' u { st with key := some d } := by
  obtain ⟨f1, g1, q1⟩ := objLoop_sep (E := E) hs f (0x22 :: k ++ 0x22 :: u) st (by simp at hf; omega) h1
  rw [List.append_assoc, q1]
  match f1 with
  | 0 => simp at hf; omega
  | f1 + 1 =>
    have hq : isBlank 0x22 = false := by decide
    refine ⟨f1, by simp at hf; omega, ?_⟩
    have hsl := strLoop_complete hk (f1 + 1) [] u (by simp at hf; omega)
    rw [List.cons_append, objLoop, skipBlanks_nb hq]
    simp only
    rw [if_neg (by decide), if_neg (by decide), if_neg (by decide), if_pos trivial, h1]
    simp only
    rw [hsl]
    rfl

theorem obj_colon {E : Env} {b u : Bytes} (hb : Blank b) (f : Nat) (st : OSt) {k : Bytes} (h1 : st.key = some k) (h2 : st.colon = false)
    (hf : (b ++ 0x3A :: u).length < f) : ∃ f', u.length < f' ∧ objLoop E f (b ++ 0x3A :: u) st = objLoop E f' u { st with colon := true } := by
  rw [objLoop_blank hb]
  match f with
  | 0 => omega
  | f + 1 =>
    have hq : isBlank 0x3A = false := by decide
    refine ⟨f, by simp at hf; omega, ?_⟩
    rw [objLoop, skipBlanks_nb hq]
    simp only
    rw [if_neg (by decide), if_neg (by decide), if_pos trivial, h1, h2, if_neg (by simp)]

theorem objLoop_end {E : Env} {b : Bytes} (hb : Blank b) (f : Nat) (st : OSt) (hf : 0 < f) : objLoop E f b st = .err .notObjectValue := by
  have := objLoop_blank (E := E) hb f [] st
  rw [List.append_nil] at this
  rw [this]
  match f with
  | 0 => omega
  | f + 1 => rw [objLoop]; rfl

theorem valStart_facts {c : UInt8} (h : ValStart c) : isBlank c = false ∧ c ≠ 0x2C ∧ c ≠ 0x7D ∧ c ≠ 0x3A ∧ c ≠ 0x5D := by
  rcases (valStart_cases c).2 h with h | h | h | h | h | h | h
  · have := isNumStart_facts h; exact ⟨this.1, this.2.2.1, this.2.2.2.1, this.2.2.2.2.1, this.2.1⟩
  all_goals subst h; decide

theorem arr_err {E : Env} {u : Bytes} {e : Err} (h : ValErrOK E u e) (hu : ∀ c t, u = c :: t → ¬ Spec.Sep [c] ∧ c ≠ 0x5D) (f : Nat) (acc : List V)
    (hf : u.length < f) : arrLoop E f u acc = .err e := by
  obtain ⟨c, t, rfl, hc⟩ := h
  obtain ⟨h1, h2⟩ := hu c t rfl
  obtain ⟨h3, h4⟩ := notSep_facts h1
  match f with
  | 0 => omega
  | f + 1 =>
    have hl : t.length < f := by simp at hf; omega
    rw [arrLoop, skipBlanks_nb h3]
    simp only
    rw [if_neg h2, if_neg h4]
    rcases hc with ⟨rfl, h⟩ | ⟨rfl, h⟩ | ⟨g1, g2, -, h⟩ | ⟨h, rfl⟩
    · rw [if_pos rfl, h f hl]; rfl
    · rw [if_neg (by decide), if_pos rfl, h f hl]; rfl
    · rw [if_neg g1, if_neg g2, h (f+1) (by omega)]; rfl
    · have n1 : c ≠ 0x7B := fun hh => h (by rw [hh]; exact .inr (.inr (.inr (.inl rfl))))
      have n2 : c ≠ 0x5B := fun hh => h (by rw [hh]; exact .inr (.inr (.inl rfl)))
      rw [if_neg n1, if_neg n2, parseScalar_none.2 (.inr (.inr h))]; rfl

theorem obj_err {E : Env} {u : Bytes} {e : Err} (h : ValErrOK E u e) (hu : ∀ c t, u = c :: t → ¬ Spec.Sep [c] ∧ c ≠ 0x7D ∧ c ≠ 0x3A) (f : Nat) (st : OSt) {k : Bytes}
    (hk : st.key = some k) (hcol : st.colon = true) (hf : u.length < f) : objLoop E f u st = .err e := by
  obtain ⟨c, t, rfl, hc⟩ := h
  obtain ⟨h1, h2, h2'⟩ := hu c t rfl
  obtain ⟨h3, h4⟩ := notSep_facts h1
  match f with
  | 0 => omega
  | f + 1 =>
    have hl : t.length < f := by simp at hf; omega
    rw [objLoop, skipBlanks_nb h3]
    simp only
    rw [if_neg h2, if_neg h4, if_neg h2', hk, hcol]
    rcases hc with ⟨rfl, h⟩ | ⟨rfl, h⟩ | ⟨g1, g2, hv, h⟩ | ⟨h, rfl⟩
    · rw [if_neg (by decide), if_pos (by simp)]; simp only [Bool.not_true, Bool.false_eq_true, if_false, if_true]; rw [h f hl]; rfl
    · rw [if_neg (by decide), if_pos (by simp)]; simp only [Bool.not_true, Bool.false_eq_true, if_false, if_true]; rw [if_neg (by decide), h f hl]; rfl
    · have hp := h (f+1) (by omega)
      by_cases hq : c = 0x22
      · subst hq
        rw [if_pos rfl]
        simp only [Bool.not_true, Bool.false_eq_true, if_false]
        unfold parseScalar at hp
        rw [if_neg (by decide), if_pos rfl] at hp
        match ho : strLoop (f+1) t [] with
        | .ok (s, t1) => rw [ho] at hp; simp at hp
        | .err e' => rw [ho] at hp; simpa using hp
        | .panic => rw [ho] at hp; simp at hp
        | .diverge => rw [ho] at hp; simp at hp
      · rw [if_neg hq, if_pos (by have := (valStart_cases c).2 hv; grind)]
        simp only [Bool.not_true, Bool.false_eq_true, if_false]
        rw [if_neg g1, if_neg g2, hp]; rfl
    · have hno := fun hh => h ((valStart_cases c).1 hh)
      rw [if_neg (fun hh => hno (.inr (.inl hh))), if_neg (fun hh => hno (by grind))]

theorem errors_complete (E : Env) {u : Bytes} {e : Err} (h : VErr (NumTok E) u e) : ValErrOK E u e := by
  have ns : ∀ {c : UInt8}, isNumStart c = false → ¬ (isNumStart c = true) := fun h => by simp [h]
  refine @VErr.rec (NumTok E) (fun u e _ => ValErrOK E u e) (fun s e _ => ∀ f acc, s.length < f → arrLoop E f s acc = .err e)
    (fun s e _ => ∀ f (st : OSt), st.key = none → st.colon = false → s.length < f → objLoop E f s st = .err e)
    ?char ?tru ?fls ?nshort ?null ?num ?str ?arr ?obj ?aeof ?aelem ?anext ?oeof ?noKey ?keyChar ?key ?noColon ?colonChar ?noValue ?value ?onext u e h
  case char => intro c t hc; exact ⟨c, t, rfl, .inr (.inr (.inr ⟨hc, rfl⟩))⟩
  case tru =>
    intro t ht
    refine ⟨0x74, t, rfl, .inr (.inr (.inl ⟨by decide, by decide, (valStart_cases _).1 (by simp), fun f _ => ?_⟩))⟩
    unfold parseScalar
    rw [if_neg (by decide), if_neg (by decide), if_pos rfl]
    have : parseLit (0x74 :: t) litTrue .notValidBoolValue .notValidBoolValue = .err .notValidBoolValue := parseLit_err.2 (by
      by_cases hl : (0x74 :: t).length < litTrue.length
      · exact .inl ⟨hl, rfl⟩
      · exact .inr ⟨by omega, fun r hr => ht r (by simpa [litTrue] using hr), rfl⟩)
    rw [this]; rfl
  case fls =>
    intro t ht
    refine ⟨0x66, t, rfl, .inr (.inr (.inl ⟨by decide, by decide, (valStart_cases _).1 (by simp), fun f _ => ?_⟩))⟩
    unfold parseScalar
    rw [if_neg (by decide), if_neg (by decide), if_neg (by decide), if_pos rfl]
    have : parseLit (0x66 :: t) litFalse .notValidBoolValue .notValidBoolValue = .err .notValidBoolValue := parseLit_err.2 (by
      by_cases hl : (0x66 :: t).length < litFalse.length
      · exact .inl ⟨hl, rfl⟩
      · exact .inr ⟨by omega, fun r hr => ht r (by simpa [litFalse] using hr), rfl⟩)
    rw [this]; rfl
  case nshort =>
    intro t ht
    refine ⟨0x6E, t, rfl, .inr (.inr (.inl ⟨by decide, by decide, (valStart_cases _).1 (by simp), fun f _ => ?_⟩))⟩
    unfold parseScalar
    rw [if_neg (by decide), if_neg (by decide), if_neg (by decide), if_neg (by decide), if_pos rfl]
    have : parseLit (0x6E :: t) litNull .notValidNullValue .notValidBoolValue = .err .notValidNullValue := parseLit_err.2 (.inl ⟨by simp [litNull]; omega, rfl⟩)
    rw [this]; rfl
  case null =>
    intro t h1 ht
    refine ⟨0x6E, t, rfl, .inr (.inr (.inl ⟨by decide, by decide, (valStart_cases _).1 (by simp), fun f _ => ?_⟩))⟩
    unfold parseScalar
    rw [if_neg (by decide), if_neg (by decide), if_neg (by decide), if_neg (by decide), if_pos rfl]
    have : parseLit (0x6E :: t) litNull .notValidNullValue .notValidBoolValue = .err .notValidBoolValue := parseLit_err.2
      (.inr ⟨by simp [litNull]; omega, fun r hr => ht r (by simpa [litNull] using hr), rfl⟩)
    rw [this]; rfl
  case num =>
    intro c t r hc h1 h2 h3
    have hn := (numStart_iff c).2 hc
    have hf := isNumStart_facts hn
    refine ⟨c, t ++ r, rfl, .inr (.inr (.inl ⟨hf.2.2.2.2.2.1, hf.2.2.2.2.2.2.1, .inl hc, fun f _ => ?_⟩))⟩
    unfold parseScalar
    rw [if_pos hn, (parseNumber_err_iff hn).2 ⟨rfl, t, r, rfl, h1, h2, h3⟩]; rfl
  case str =>
    intro t e hs
    refine ⟨0x22, t, rfl, .inr (.inr (.inl ⟨by decide, by decide, (valStart_cases _).1 (by simp), fun f hf => ?_⟩))⟩
    unfold parseScalar
    rw [if_neg (by decide), if_pos rfl, strLoop_err_complete hs f [] hf]; rfl
  case arr => intro t e _ ih; exact ⟨0x5B, t, rfl, .inr (.inl ⟨rfl, fun f hf => ih f [] hf⟩)⟩
  case obj => intro t e _ ih; exact ⟨0x7B, t, rfl, .inl ⟨rfl, fun f hf => ih f {} rfl rfl hf⟩⟩
  case aeof =>
    intro s hs f acc hf
    obtain ⟨f1, g1, q1⟩ := arrLoop_sep (E := E) hs f [] acc hf
    rw [List.append_nil] at q1
    rw [q1]
    match f1 with
    | 0 => omega
    | f1 + 1 => rw [arrLoop]; rfl
  case aelem =>
    intro s u e hs _ hu ih f acc hf
    obtain ⟨f1, g1, q1⟩ := arrLoop_sep (E := E) hs f u acc (by simp at hf; omega)
    rw [q1]
    exact arr_err ih hu f1 acc (by simp at hf; omega)
  case anext =>
    intro s t ts v e hs hv hF _ ih f acc hf
    obtain ⟨f1, g1, q1⟩ := arrLoop_sep (E := E) hs f (t ++ ts) acc (by simp at hf; omega)
    rw [List.append_assoc, q1]
    have hok := lenient_complete E hv
    obtain ⟨f2, g2, q2⟩ := arr_step hok f1 ts acc (by simp at hf ⊢; omega) hF
    rw [q2]
    obtain ⟨c, t', rfl, -⟩ := hok
    exact ih f2 _ (by simp at hf; omega)
  case oeof =>
    intro s hs f st hk hc hf
    obtain ⟨f1, g1, q1⟩ := objLoop_sep (E := E) hs f [] st hf hk
    rw [List.append_nil] at q1
    rw [q1]
    exact objLoop_end (Blank_nil) f1 st (by omega)
  case noKey =>
    intro s c t hs hc f st hk hcol hf
    obtain ⟨f1, g1, q1⟩ := objLoop_sep (E := E) hs f (c :: t) st (by simp at hf; omega) hk
    rw [q1]
    match f1 with
    | 0 => simp at hf; omega
    | f1 + 1 =>
      rcases hc with rfl | ⟨hc, hq⟩
      · have hq : isBlank 0x3A = false := by decide
        rw [objLoop, skipBlanks_nb hq]
        simp only
        rw [if_neg (by decide), if_neg (by decide), if_pos trivial, hk, hcol]; rfl
      · obtain ⟨b1, b2, b3, b4, -⟩ := valStart_facts hc
        rw [objLoop, skipBlanks_nb b1]
        simp only
        rw [if_neg b3, if_neg b2, if_neg b4, if_neg hq, if_pos (by have := (valStart_cases c).2 hc; grind), hk]
  case keyChar =>
    intro s c t hs h1 h2 h3 h4 f st hk hcol hf
    obtain ⟨f1, g1, q1⟩ := objLoop_sep (E := E) hs f (c :: t) st (by simp at hf; omega) hk
    rw [q1]
    obtain ⟨b1, b2⟩ := notSep_facts h1
    match f1 with
    | 0 => simp at hf; omega
    | f1 + 1 =>
      have hno := fun hh => h4 ((valStart_cases c).1 hh)
      rw [objLoop, skipBlanks_nb b1]
      simp only
      rw [if_neg h2, if_neg b2, if_neg h3, if_neg (fun hh => hno (.inr (.inl hh))), if_neg (fun hh => hno (by grind))]
  case key =>
    intro s t e hs hb f st hk hcol hf
    obtain ⟨f1, g1, q1⟩ := objLoop_sep (E := E) hs f (0x22 :: t) st (by simp at hf; omega) hk
    rw [q1]
    match f1 with
    | 0 => simp at hf; omega
    | f1 + 1 =>
      have hq : isBlank 0x22 = false := by decide
      rw [objLoop, skipBlanks_nb hq]
      simp only
      rw [if_neg (by decide), if_neg (by decide), if_neg (by decide), if_pos trivial, hk]
      simp only
      rw [strLoop_err_complete hb (f1 + 1) [] (by simp at hf; omega)]; rfl
  case noColon =>
    intro s k d b u hs hk hb hu f st h1 h2 hf
    rw [List.append_assoc, List.cons_append] at hf ⊢
    obtain ⟨f1, g1, q1⟩ := obj_key (E := E) (u := b ++ u) hs hk f st h1 h2 hf
    rw [q1]
    match u with
    | [] => rw [List.append_nil]; exact objLoop_end hb f1 _ (by omega)
    | c :: t =>
      rw [objLoop_blank hb]
      match f1 with
      | 0 => omega
      | f1 + 1 =>
        rcases hu c t rfl with rfl | rfl | hc
        · have hq : isBlank 0x2C = false := by decide
          rw [objLoop, skipBlanks_nb hq]; rfl
        · have hq : isBlank 0x7D = false := by decide
          rw [objLoop, skipBlanks_nb hq]; rfl
        · obtain ⟨b1, b2, b3, b4, -⟩ := valStart_facts hc
          rw [objLoop, skipBlanks_nb b1]
          simp only
          rw [if_neg b3, if_neg b2, if_neg b4, h2]
          by_cases hq : c = 0x22
          · rw [if_pos hq]; rfl
          · rw [if_neg hq, if_pos (by have := (valStart_cases c).2 hc; grind)]; rfl
  case colonChar =>
    intro s k d b c t hs hk hb hc1 hc2 hc3 hc4 f st h1 h2 hf
    rw [List.append_assoc, List.cons_append] at hf ⊢
    obtain ⟨f1, g1, q1⟩ := obj_key (E := E) (u := b ++ c :: t) hs hk f st h1 h2 hf
    rw [q1, objLoop_blank hb]
    obtain ⟨b1, b2⟩ := notSep_facts hc1
    match f1 with
    | 0 => omega
    | f1 + 1 =>
      have hno := fun hh => hc4 ((valStart_cases c).1 hh)
      rw [objLoop, skipBlanks_nb b1]
      simp only
      rw [if_neg hc2, if_neg b2, if_neg hc3, if_neg (fun hh => hno (.inr (.inl hh))), if_neg (fun hh => hno (by grind))]
  case noValue =>
    intro s k d b1 b2 u hs hk hb1 hb2 hu f st h1 h2 hf
    have e0 : s ++ 0x22 :: k ++ 0x22 :: b1 ++ 0x3A :: b2 ++ u = s ++ 0x22 :: k ++ 0x22 :: (b1 ++ 0x3A :: (b2 ++ u)) := by simp
    rw [e0] at hf ⊢
    obtain ⟨f1, g1, q1⟩ := obj_key (E := E) (u := b1 ++ 0x3A :: (b2 ++ u)) hs hk f st h1 h2 hf
    obtain ⟨f2, g2, q2⟩ := obj_colon (E := E) (u := b2 ++ u) hb1 f1 { st with key := some d } rfl h2 g1
    rw [q1, q2]
    match u with
    | [] => rw [List.append_nil]; exact objLoop_end hb2 f2 _ (by omega)
    | c :: t =>
      rw [objLoop_blank hb2]
      match f2 with
      | 0 => omega
      | f2 + 1 =>
        rcases hu c t rfl with rfl | rfl | rfl
        · have hq : isBlank 0x2C = false := by decide
          rw [objLoop, skipBlanks_nb hq]; rfl
        · have hq : isBlank 0x7D = false := by decide
          rw [objLoop, skipBlanks_nb hq]; rfl
        · have hq : isBlank 0x3A = false := by decide
          rw [objLoop, skipBlanks_nb hq]; rfl
  case value =>
    intro s k d b1 b2 u e hs hk hb1 hb2 _ hu ih f st h1 h2 hf
    have e0 : s ++ 0x22 :: k ++ 0x22 :: b1 ++ 0x3A :: b2 ++ u = s ++ 0x22 :: k ++ 0x22 :: (b1 ++ 0x3A :: (b2 ++ u)) := by simp
    rw [e0] at hf ⊢
    obtain ⟨f1, g1, q1⟩ := obj_key (E := E) (u := b1 ++ 0x3A :: (b2 ++ u)) hs hk f st h1 h2 hf
    obtain ⟨f2, g2, q2⟩ := obj_colon (E := E) (u := b2 ++ u) hb1 f1 { st with key := some d } rfl h2 g1
    rw [q1, q2, objLoop_blank hb2]
    exact obj_err ih hu f2 _ rfl rfl (by simp at g2; omega)
  case onext =>
    intro s k b1 b2 t ts d v e hs hk hb1 hb2 hv hF _ ih f st h1 h2 hf
    have e0 : s ++ 0x22 :: k ++ 0x22 :: b1 ++ 0x3A :: b2 ++ t ++ ts = s ++ 0x22 :: k ++ 0x22 :: (b1 ++ 0x3A :: (b2 ++ (t ++ ts))) := by simp
    rw [e0] at hf ⊢
    obtain ⟨f1, g1, q1⟩ := obj_key (E := E) (u := b1 ++ 0x3A :: (b2 ++ (t ++ ts))) hs hk f st h1 h2 hf
    obtain ⟨f2, g2, q2⟩ := obj_colon (E := E) (u := b2 ++ (t ++ ts)) hb1 f1 { st with key := some d } rfl h2 g1
    rw [q1, q2, objLoop_blank hb2]
    have hok := lenient_complete E hv
    obtain ⟨f3, g3, q3⟩ := obj_step hok f2 ts d st.incr st.kvs (by simp at g2 ⊢; omega) hF
    have e1 : ({ key := some d, colon := true, incr := st.incr, kvs := st.kvs } : OSt) = { ({ st with key := some d } : OSt) with colon := true } := rfl
    rw [← e1, q3]
    obtain ⟨c, t', rfl, -⟩ := hok
    exact ih f3 _ rfl rfl (by simp at g2; omega)

theorem notBlank_one {c : UInt8} : ¬ Blank [c] ↔ isBlank c = false := by
  constructor
  · intro h
    cases hb : isBlank c with
    | false => rfl
    | true => exact absurd (fun x hx => by simp at hx; subst hx; exact (isBlank_iff x).1 hb) h
  · intro h hb
    have := (isBlank_iff c).2 (hb c (by simp))
    rw [h] at this; cases this

theorem skipBlanks_nil {t : Bytes} : skipBlanks t = [] ↔ Blank t := by
  obtain ⟨b, h1, h2, h3⟩ := skipBlanks_spec t
  constructor
  · intro h; rw [h, List.append_nil] at h1; rw [h1]; exact h2
  · intro h
    have := skipBlanks_blank (s := []) h
    rw [List.append_nil] at this
    rw [this]; rfl

/-- The error of the parser is the error of the text. -/
theorem unmarshal_err_iff (E : Env) (s : Bytes) (e : Err) : unmarshal E s = .err e ↔ TextErr (NumTok E) s e := by
  constructor
  · intro h
    unfold unmarshal at h
    split at h
    · rename_i h0
      have : s = [] := List.eq_nil_of_length_eq_zero h0
      have he : Err.nilParameter = e := by simpa using h
      subst this he
      exact .empty
    · rename_i h0
      unfold unmarshalWithIter at h
      obtain ⟨b, hb, hbl, hnb⟩ := skipBlanks_spec s
      match hsb : skipBlanks s with
      | [] =>
        rw [hsb] at h
        have he : Err.rawBytesUnrecognized = e := by simpa using h
        subst he
        exact .blank _ (skipBlanks_nil.1 hsb) (by rintro rfl; exact h0 rfl)
      | c :: t =>
        have hnb := hnb c t hsb
        rw [hsb] at hb
        simp only [hsb] at h
        have ok1 : ∀ c' t', c :: t = c' :: t' → ¬ Blank [c'] := fun c' t' hh => by
          simp only [List.cons.injEq] at hh
          rw [← hh.1]; exact notBlank_one.2 hnb
        match hv : parseValue E (s.length + 1) c t with
        | .ok (w, t1) =>
          rw [hv] at h
          simp only [R.bind_ok] at h
          split at h
          · simp at h
          · rename_i hr
            have he : Err.rawBytesUnrecognized = e := by simpa using h
            subst he
            have key : ∃ txt j, c :: t = txt ++ t1 ∧ LVal (NumTok E) txt j ∧ Follow j t1 := by
              unfold parseValue at hv
              split at hv
              · rename_i hc
                obtain ⟨body, ms, rfl, hm, -⟩ := (loops_sound E _).2 _ _ _ _ hv
                exact ⟨0x7B :: body, .obj ms, by rw [hc]; simp, .obj _ _ hm, trivial⟩
              · split at hv
                · rename_i hc
                  obtain ⟨body, ms, rfl, hm, -⟩ := (loops_sound E _).1 _ _ _ _ hv
                  exact ⟨0x5B :: body, .arr ms, by rw [hc]; simp, .arr _ _ hm, trivial⟩
                · match ho : parseScalar E (s.length + 1) c t with
                  | .ok (some (w', t')) =>
                    rw [ho] at hv
                    simp only [R.bind_ok, R.pure_eq, R.ok.injEq, Prod.mk.injEq] at hv
                    obtain ⟨rfl, rfl⟩ := hv
                    obtain ⟨txt, j, h1, h2, -, h3⟩ := parseScalar_sound ho
                    exact ⟨txt, j, h1, h2, h3⟩
                  | .ok none => rw [ho] at hv; simp at hv
                  | .err e => rw [ho] at hv; simp at hv
                  | .panic => rw [ho] at hv; simp at hv
                  | .diverge => rw [ho] at hv; simp at hv
            obtain ⟨txt, j, h1, h2, h3⟩ := key
            rw [hb, h1, ← List.append_assoc]
            exact .trailing b txt t1 j hbl h2 h3 (fun hh => hr (skipBlanks_nil.2 hh))
        | .err e' =>
          rw [hv] at h
          have he : e' = e := by simpa using h
          subst he
          rw [hb]
          refine .value _ _ _ hbl ok1 ?_
          unfold parseValue at hv
          split at hv
          · rename_i hc; subst hc; exact .obj _ _ ((loops_err_sound E _).2 _ _ _ hv)
          · split at hv
            · rename_i hc; subst hc; exact .arr _ _ ((loops_err_sound E _).1 _ _ _ hv)
            · rename_i n1 n2
              match ho : parseScalar E (s.length + 1) c t with
              | .ok (some (w', t')) => rw [ho] at hv; simp at hv
              | .ok none =>
                rw [ho] at hv
                have he : Err.rawBytesUnrecognized = e' := by simpa using hv
                subst he
                rcases parseScalar_none.1 ho with h' | h' | h'
                · exact absurd h' n2
                · exact absurd h' n1
                · exact .char _ _ h'
              | .err e'' =>
                rw [ho] at hv
                have he : e'' = e' := by simpa using hv
                subst he
                exact parseScalar_err_sound ho
              | .panic => rw [ho] at hv; simp at hv
              | .diverge => rw [ho] at hv; simp at hv
        | .panic => rw [hv] at h; simp at h
        | .diverge => rw [hv] at h; simp at h
  · intro h
    cases h with
    | empty => rfl
    | blank _ h1 h2 =>
      unfold unmarshal unmarshalWithIter
      rw [if_neg (by simpa using h2), skipBlanks_nil.2 h1]
    | value b u e hb h1 h2 =>
      obtain ⟨c, t, rfl, hc⟩ := errors_complete E h2
      have hnb := notBlank_one.1 (h1 c t rfl)
      unfold unmarshal unmarshalWithIter
      rw [if_neg (by simp), skipBlanks_blank hb, skipBlanks_nb hnb]
      simp only
      have hl : t.length < (b ++ c :: t).length + 1 := by simp; omega
      have hp : parseValue E ((b ++ c :: t).length + 1) c t = .err e := by
        unfold parseValue
        rcases hc with ⟨rfl, h⟩ | ⟨rfl, h⟩ | ⟨g1, g2, -, h⟩ | ⟨h, rfl⟩
        · rw [if_pos rfl, h _ hl]
        · rw [if_neg (by decide), if_pos rfl, h _ hl]
        · rw [if_neg g1, if_neg g2, h _ hl]; rfl
        · have n1 : c ≠ 0x7B := fun hh => h (by rw [hh]; exact .inr (.inr (.inr (.inl rfl))))
          have n2 : c ≠ 0x5B := fun hh => h (by rw [hh]; exact .inr (.inr (.inl rfl)))
          rw [if_neg n1, if_neg n2, parseScalar_none.2 (.inr (.inr h))]; rfl
      rw [hp]; rfl
    | trailing b t r j hb h1 h2 h3 =>
      obtain ⟨c, u, rfl, -⟩ := lenient_complete E h1
      unfold unmarshal unmarshalWithIter
      obtain ⟨g1, g2⟩ := parseValue_complete E h1 ((b ++ c :: u ++ r).length + 1) r (by simp; omega) h2
      rw [if_neg (by simp), List.append_assoc, skipBlanks_blank hb, List.cons_append, skipBlanks_nb g1]
      simp only
      have e0 : (b ++ c :: (u ++ r)).length = (b ++ c :: u ++ r).length := by simp
      rw [e0, g2]
      simp only [R.bind_ok]
      rw [if_neg (fun hh => h3 (skipBlanks_nil.1 hh))]

end JV
