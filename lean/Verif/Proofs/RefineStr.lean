import Verif.Model.Parse
/-! String literals: the in-place decoder refines the functional one. -/
namespace JV

theorem rd_app (P s : Bytes) (k : Nat) : rd (P ++ s) (P.length + k) = rd s k := by
  simp [rd, List.getElem?_append_right]

theorem rd_app0 (P s : Bytes) : rd (P ++ s) P.length = rd s 0 := by simpa using rd_app P s 0

@[simp] theorem rd_zero (c : UInt8) (t : Bytes) : rd (c :: t) 0 = .ok c := rfl
@[simp] theorem rd_succ (c : UInt8) (t : Bytes) (k : Nat) : rd (c :: t) (k+1) = rd t k := by simp [rd]
@[simp] theorem rd_nil (k : Nat) : rd [] k = .panic := by simp [rd]

theorem wrs_app (P g t bs : Bytes) (h : bs.length ≤ g.length) :
    wrs (P ++ (g ++ t)) P.length bs = .ok (P ++ bs ++ (g.drop bs.length ++ t)) := by
  induction bs generalizing P g with
  | nil => simp [wrs]
  | cons b bs ih =>
    cases g with
    | nil => simp at h
    | cons x g =>
      simp only [List.length_cons, Nat.add_le_add_iff_right] at h
      have hw : wr (P ++ (x :: g ++ t)) P.length b = .ok ((P ++ [b]) ++ (g ++ t)) := by
        simp [wr]
      simp only [wrs, hw, R.bind_ok]
      have := ih (P ++ [b]) g h
      simp only [List.length_append, List.length_singleton] at this
      rw [this]; simp

theorem wr_app (P g t : Bytes) (b : UInt8) (h : 1 ≤ g.length) :
    wr (P ++ (g ++ t)) P.length b = .ok (P ++ [b] ++ (g.drop 1 ++ t)) := by
  have := wrs_app P g t [b] (by simpa using h)
  cases g with
  | nil => simp at h
  | cons x g => simp [wr]

theorem runeBytes_length (r : Nat) :
    1 ≤ (runeBytes r).length ∧ (runeBytes r).length ≤ 4 ∧ (r ≤ 0xFFFF → (runeBytes r).length ≤ 3) := by
  unfold runeBytes
  split
  · simp
  · split
    · simp
    · split
      · simp
      · simp; omega

theorem hex4_cases (a b c d : UInt8) : (∃ r, hex4 a b c d = .ok r ∧ r ≤ 0xFFFF) ∨ hex4 a b c d = .err .other := by
  have h : ∀ c x, chrToHex c = some x → x ≤ 15 := by
    intro c x
    unfold chrToHex
    split
    · intro h; rename_i h'; cases h; have := h'.2; have : c.toNat ≤ 0x39 := this; omega
    · split
      · intro h; rename_i h'; cases h; have := h'.2; have : c.toNat ≤ 0x46 := this; omega
      · split
        · intro h; rename_i h'; cases h; have := h'.2; have : c.toNat ≤ 0x66 := this; omega
        · simp
  unfold hex4
  split
  · rename_i x3 x2 x1 x0 h3 h2 h1 h0
    refine .inl ⟨_, rfl, ?_⟩
    have := h _ _ h3; have := h _ _ h2; have := h _ _ h1; have := h _ _ h0
    simp only [Nat.shiftLeft_eq]; omega
  · exact .inr rfl

theorem surrogatePair_cases (r e : Nat) :
    (∃ r', surrogatePair r e = .ok r') ∨ surrogatePair r e = .err .illegalString := by
  unfold surrogatePair
  split
  · exact .inr rfl
  · split
    · exact .inr rfl
    · exact .inl ⟨_, rfl⟩

/-- what the buffer program returns when the functional one returns a decoded piece `bs` and the rest `t'`: `P` is what precedes
(including the bytes decoded so far); `gap'` is the garbage between write and read position. -/
def outB (P bs gap' t' : Bytes) : Bytes × Nat × Nat :=
  (P ++ bs ++ (gap' ++ t'), (P ++ bs).length + gap'.length, (P ++ bs).length)

/-- relation between a functional piece decoder's result and the buffer program's: `src` is the buffer from the write position on, of it `g`
precedes the unread text, and `bs` is written over its beginning -/
def PieceRel (P : Bytes) (src : Bytes) (a : R (Bytes × Bytes)) (b : R (Bytes × Nat × Nat)) : Prop :=
  match a with
  | .ok (bs, t') => ∃ g, b = .ok (outB P bs (g.drop bs.length) t') ∧ src = g ++ t' ∧ bs.length ≤ g.length
  | .err e => b = .err e
  | .panic => False
  | .diverge => False

/-- writing a decoded piece: `g` is everything between the write position and the unread text `t'` -/
theorem write_piece (P g t' bs : Bytes) (i : Nat) (hi : i = P.length + g.length) (h : bs.length ≤ g.length) :
    (do let it ← wrs (P ++ (g ++ t')) P.length bs
        pure (it, i, P.length + bs.length) : R (Bytes × Nat × Nat)) =
      .ok (outB P bs (g.drop bs.length) t') := by
  rw [wrs_app _ _ _ _ h]
  simp [outB]; omega

theorem escUnicodeB_rel (P gap s : Bytes) :
    PieceRel P (gap ++ 0x5C :: 0x75 :: s) (escUnicode s)
      (escUnicodeB (P ++ (gap ++ 0x5C :: 0x75 :: s)) (P.length + gap.length) P.length) := by
  have hlen : (P ++ (gap ++ 0x5C :: 0x75 :: s)).length = P.length + gap.length + 2 + s.length := by
    simp; omega
  have hrd : ∀ k, rd (P ++ (gap ++ 0x5C :: 0x75 :: s)) (P.length + gap.length + (k+2)) = rd s k := by
    intro k
    have := rd_app (P ++ gap) (0x5C :: 0x75 :: s) (k+2)
    simpa [Nat.add_assoc] using this
  unfold escUnicodeB
  rw [hlen]
  match s, hrd with
  | [], _ => simp [escUnicode, PieceRel]
  | [_], _ => simp [escUnicode, PieceRel]
  | [_, _], _ => simp [escUnicode, PieceRel]
  | [_, _, _], _ => simp [escUnicode, PieceRel]
  | [_, _, _, _], _ => simp [escUnicode, PieceRel]
  | a :: b :: c :: d :: x :: t, hrd =>
    have h0 := hrd 0; have h1 := hrd 1; have h2 := hrd 2; have h3 := hrd 3
    have h4 := hrd 4; have h5 := hrd 5
    simp only [rd_succ, rd_zero, Nat.zero_add, Nat.reduceAdd] at h0 h1 h2 h3 h4 h5
    rw [if_neg (by simp only [List.length_cons]; omega)]
    simp only [h0, h1, h2, h3, R.bind_ok, escUnicode]
    rcases hex4_cases a b c d with ⟨r, hr, hr'⟩ | hr
    · simp only [hr, R.bind_ok]
      by_cases hb : r ≤ 0xD7FF ∨ r ≥ 0xE000
      · simp only [if_pos hb]
        have hl := runeBytes_length r
        refine ⟨gap ++ [0x5C, 0x75, a, b, c, d], ?_, by simp, ?_⟩
        · have := write_piece P (gap ++ [0x5C, 0x75, a, b, c, d]) (x :: t) (runeBytes r) (P.length + gap.length + 6)
            (by simp; omega) (by simp; omega)
          simpa using this
        · simp; omega
      · simp only [if_neg hb]
        match t with
        | [] => simp [PieceRel]
        | [_] => simp [PieceRel]
        | [_, _] => simp [PieceRel]
        | [_, _, _] => simp [PieceRel]
        | [_, _, _, _] => simp [PieceRel]
        | [_, _, _, _, _] => simp [PieceRel]
        | q :: a' :: b' :: c' :: d' :: y :: t =>
          have h6 := hrd 6; have h7 := hrd 7; have h8 := hrd 8; have h9 := hrd 9
          simp only [rd_succ, rd_zero, Nat.reduceAdd] at h4 h5 h6 h7 h8 h9
          rw [if_neg (by simp only [List.length_cons]; omega)]
          simp only [h4, h5, R.bind_ok]
          by_cases hx : x = 0x5C
          · subst hx
            simp only [ne_eq, not_true_eq_false, if_false]
            by_cases hq : q = 0x75
            · subst hq
              simp only [not_true_eq_false, if_false, h6, h7, h8, h9, R.bind_ok]
              rcases hex4_cases a' b' c' d' with ⟨e, he, he'⟩ | he
              · simp only [he, R.bind_ok]
                rcases surrogatePair_cases r e with ⟨r', hr''⟩ | hr''
                · simp only [hr'', R.bind_ok]
                  have hl := runeBytes_length r'
                  refine ⟨gap ++ [0x5C, 0x75, a, b, c, d, 0x5C, 0x75, a', b', c', d'], ?_, by simp, ?_⟩
                  · have := write_piece P (gap ++ [0x5C, 0x75, a, b, c, d, 0x5C, 0x75, a', b', c', d']) (y :: t) (runeBytes r')
                      (P.length + gap.length + 12) (by simp; omega) (by simp; omega)
                    simpa using this
                  · simp; omega
                · simp [hr'', PieceRel]
              · simp [he, PieceRel]
            · simp [hq, PieceRel]
          · simp [hx, PieceRel]
    · simp [hr, PieceRel]

theorem shiftB_rel (P gap s : Bytes) (n : Nat) :
    PieceRel P (gap ++ s) (shiftA s n)
      (shiftB (P ++ (gap ++ s)) (P.length + gap.length) P.length n) := by
  unfold shiftA shiftB
  by_cases h : s.length < n
  · simp [h, PieceRel, ← Nat.add_assoc]
  · have h' : ¬ (P ++ (gap ++ s)).length < P.length + gap.length + n := by simp; omega
    simp only [h, h', if_false]
    refine ⟨gap ++ s.take n, ?_, by simp, by simp⟩
    · rw [show (s.take n).length = n by simp; omega]
      unfold memcpyB
      by_cases hg : gap = []
      · subst hg
        simp [outB]; omega
      · have hg' : 0 < gap.length := List.length_pos_iff.mpr hg
        have h1 : ¬ (P.length = P.length + gap.length) := by omega
        have h2 : (P.length + gap.length ≤ P.length + gap.length + n ∧ P.length + gap.length + n ≤ (P ++ (gap ++ s)).length) := by
          simp; omega
        have h3 : (P.length ≤ P.length + n ∧ P.length + n ≤ (P ++ (gap ++ s)).length) := by simp; omega
        simp only [h1, if_false, slice, h2, h3, and_self, if_true, R.bind_ok]
        have h4 : sub (P ++ (gap ++ s)) (P.length + gap.length) (P.length + gap.length + n) = s.take n := by
          have : P ++ (gap ++ s) = (P ++ gap) ++ s := by simp
          simp only [sub, this]
          rw [show P.length + gap.length = (P ++ gap).length by simp, List.drop_left]
          congr 1; omega
        rw [h4]
        have := write_piece P (gap ++ s.take n) (s.drop n) (s.take n) (P.length + gap.length + n)
            (by simp; omega) (by simp)
        rw [show (gap ++ s.take n) ++ s.drop n = gap ++ s by simp] at this
        rw [show (s.take n).length = n by simp; omega] at this
        exact this

/-- as `PieceRel`, for the whole loop step -/
def StepRel (P : Bytes) (src : Bytes) (a : R (Option (Bytes × Bytes))) (b : R (Option (Bytes × Nat × Nat))) : Prop :=
  match a with
  | .ok none => b = .ok none
  | .ok (some (bs, t')) => ∃ g, b = .ok (some (outB P bs (g.drop bs.length) t')) ∧ src = g ++ t' ∧ bs.length ≤ g.length
  | .err e => b = .err e
  | .panic => False
  | .diverge => False

theorem StepRel.of_piece {P : Bytes} {len : Bytes} {a : R (Bytes × Bytes)} {b : R (Bytes × Nat × Nat)}
    (h : PieceRel P len a b) :
    StepRel P len (do return some (← a)) (do return some (← b)) := by
  match a, h with
  | .ok (bs, t'), ⟨gap', h, h'⟩ => exact ⟨gap', by simp [h], h'⟩
  | .err e, h => simp only [PieceRel] at h; simp [h, StepRel]

theorem strStepB_rel (P gap t : Bytes) (c : UInt8) :
    StepRel P (gap ++ c :: t) (strStep c t)
      (strStepB (P ++ (gap ++ c :: t)) (P.length + gap.length) P.length) := by
  have hrd : ∀ k, rd (P ++ (gap ++ c :: t)) (P.length + gap.length + k) = rd (c :: t) k := by
    intro k
    have := rd_app (P ++ gap) (c :: t) k
    simpa using this
  unfold strStepB strStep
  rw [show P.length + gap.length = P.length + gap.length + 0 by rfl, hrd]
  simp only [rd_zero, R.bind_ok, Nat.add_zero]
  by_cases h1 : c = 0x5C
  · subst h1
    simp only [if_true]
    unfold escStartB
    match t with
    | [] => rw [if_pos (by simp; omega)]; simp [StepRel]
    | e :: t =>
      rw [if_neg (by simp; omega), hrd 1]
      simp only [rd_succ, rd_zero, R.bind_ok]
      cases hs : simpleEsc e with
      | some b =>
        simp only
        rw [show P ++ (gap ++ 0x5C :: e :: t) = P ++ ((gap ++ [0x5C, e]) ++ t) by simp,
          wr_app _ _ _ _ (by simp)]
        refine ⟨gap ++ [0x5C, e], ?_, by simp, by simp⟩
        simp [outB]; omega
      | none =>
        simp only
        by_cases he : e = 0x75
        · subst he
          simp only [if_true]
          exact StepRel.of_piece (escUnicodeB_rel P gap t)
        · simp [he, StepRel]
  · simp only [h1, if_false]
    by_cases h2 : c = 0x22
    · simp [h2, StepRel]
    · simp only [h2, if_false]
      by_cases h3 : c ≤ 0x7F
      · simp only [h3, if_true]
        rw [show P ++ (gap ++ c :: t) = P ++ ((gap ++ [c]) ++ t) by simp, wr_app _ _ _ _ (by simp)]
        refine ⟨gap ++ [c], ?_, by simp, by simp⟩
        simp [outB]; omega
      · simp only [h3, if_false]
        have hs := fun n => StepRel.of_piece (shiftB_rel P gap (c :: t) n)
        split
        · exact hs 2
        · split
          · exact hs 3
          · split
            · exact hs 4
            · simp [StepRel]

/-- The string loop: `pre` is the buffer before the literal's text, `dec` the decoded bytes, `gap` garbage, `t` unread text. Of `gap ++ t`
the part `g` is before the rest, and what was decoded is written over its beginning. -/
theorem strLoopB_rel (f : Nat) (pre dec gap t : Bytes) :
    match strLoop f t dec with
    | .ok (s, t') => ∃ g, strLoopB f (pre ++ dec ++ (gap ++ t)) ((pre ++ dec).length + gap.length) (pre ++ dec).length
          = .ok (pre ++ s ++ (g.drop (s.length - dec.length) ++ t'), pre.length + s.length, pre.length + s.length + (g.drop (s.length - dec.length)).length)
          ∧ gap ++ t = g ++ t' ∧ dec.length ≤ s.length ∧ s.length - dec.length < g.length
    | .err e => strLoopB f (pre ++ dec ++ (gap ++ t)) ((pre ++ dec).length + gap.length) (pre ++ dec).length = .err e
    | .panic => False
    | .diverge => strLoopB f (pre ++ dec ++ (gap ++ t)) ((pre ++ dec).length + gap.length) (pre ++ dec).length = .diverge := by
  induction f generalizing dec gap t with
  | zero => simp [strLoop, strLoopB]
  | succ f ih =>
    match t with
    | [] =>
      simp only [strLoop, strLoopB]
      rw [if_neg (by simp; omega)]
    | c :: t =>
      have hlt : (pre ++ dec).length + gap.length < (pre ++ dec ++ (gap ++ c :: t)).length := by simp; omega
      simp only [strLoop, strLoopB, hlt, if_true]
      have hs := strStepB_rel (pre ++ dec) gap t c
      match hst : strStep c t, hs with
      | .ok none, hs =>
        simp only [StepRel] at hs
        simp only [hs, R.bind_ok, R.pure_eq]
        exact ⟨gap ++ [c], by simp [Nat.add_assoc], by simp, by simp, by simp⟩
      | .ok (some (bs, t')), hs =>
        obtain ⟨g, hb, hg, hl⟩ := hs
        simp only [hb, R.bind_ok, outB]
        have := ih (dec ++ bs) (g.drop bs.length) t'
        rw [← List.append_assoc pre dec bs] at this
        match hsl : strLoop f t' (dec ++ bs), this with
        | .ok (s, t2), ⟨g', h1, h2, h3, h4⟩ =>
          simp only [List.length_append] at h3 h4
          have hd : (g.take bs.length ++ g').drop (s.length - dec.length) = g'.drop (s.length - (dec ++ bs).length) := by
            rw [show s.length - dec.length = (g.take bs.length).length + (s.length - (dec ++ bs).length) by simp; omega, List.drop_append,
              List.drop_eq_nil_of_le (by simp), List.nil_append, Nat.add_sub_cancel_left]
          refine ⟨g.take bs.length ++ g', by rw [hd]; exact h1, ?_, by omega, by simp; omega⟩
          rw [hg, List.append_assoc, ← h2, ← List.append_assoc, List.take_append_drop]
        | .err e, h => exact h
        | .diverge, h => exact h
      | .err e, hs =>
        simp only [StepRel] at hs
        simp only [hs, R.bind_err]

end JV
