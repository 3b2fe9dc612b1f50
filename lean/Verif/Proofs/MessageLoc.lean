import Verif.Proofs.Message
import Verif.Spec.Message
/-! How far each function of `Model/Message` looks: what it accepts does not depend on what follows (except that a number needs its end), and an error
that points at a byte does not depend on what follows that byte. -/
namespace JV
open Spec

theorem bindM_ok {α β : Type} {x : RM α} {k : α → RM β} {b : β} (h : (x >>= k) = .ok b) : ∃ a, x = .ok a ∧ k a = .ok b := by
  cases x with
  | ok a => exact ⟨a, rfl, h⟩
  | err m => cases h
  | panic => cases h
  | diverge => cases h

theorem bindM_err {α β : Type} {x : RM α} {k : α → RM β} {m : Msg} (h : (x >>= k) = .err m) : x = .err m ∨ ∃ a, x = .ok a ∧ k a = .err m := by
  cases x with
  | ok a => exact .inr ⟨a, rfl, h⟩
  | err m => cases h; exact .inl rfl
  | panic => cases h
  | diverge => cases h

theorem withMsg_ok {α : Type} {m : Msg} {x : R α} {a : α} (h : x.withMsg m = .ok a) : x = .ok a := by
  cases x with
  | ok b => cases h; rfl
  | err e => cases h
  | panic => cases h
  | diverge => cases h

theorem withMsg_err {α : Type} {m m' : Msg} {x : R α} (h : x.withMsg m = .err m') : m' = m ∧ ∃ e, x = .err e := by
  cases x with
  | ok b => cases h
  | err e => cases h; exact ⟨rfl, e, rfl⟩
  | panic => cases h
  | diverge => cases h

/-! ### blanks -/

theorem skipM_inv {p : Nat} {s : Bytes} {q : Nat} {u : Bytes} (h : skipBlanksM p s = (q, u)) :
    ∃ b, Blank b ∧ s = b ++ u ∧ q = p + b.length ∧ ∀ c t, u = c :: t → isBlank c = false := by
  induction s generalizing p with
  | nil =>
    cases h
    exact ⟨[], by simp [Blank], rfl, rfl, fun c t h => by cases h⟩
  | cons c t ih =>
    rw [skipBlanksM] at h
    by_cases hc : isBlank c = true
    · rw [if_pos hc] at h
      obtain ⟨b, h1, rfl, h3, h4⟩ := ih h
      refine ⟨c :: b, fun x hx => ?_, rfl, by rw [h3, List.length_cons]; omega, h4⟩
      rcases List.mem_cons.1 hx with rfl | hx
      · unfold isBlank at hc; simpa [or_assoc] using hc
      · exact h1 x hx
    · rw [if_neg hc] at h
      cases h
      exact ⟨[], by simp [Blank], rfl, rfl, fun c' t' h => by cases h; simpa using hc⟩

theorem isBlank_of {c : UInt8} {b : Bytes} (hb : Blank b) (hc : c ∈ b) : isBlank c = true := by
  have := hb c hc
  unfold isBlank; simpa [or_assoc] using this

theorem skipM_app {b : Bytes} (hb : Blank b) (p : Nat) (u : Bytes) (hu : ∀ c t, u = c :: t → isBlank c = false) : skipBlanksM p (b ++ u) = (p + b.length, u) := by
  induction b generalizing p with
  | nil =>
    cases u with
    | nil => rfl
    | cons c t => rw [List.nil_append, skipBlanksM, if_neg (by rw [hu c t rfl]; decide)]; rfl
  | cons c b ih =>
    rw [List.cons_append, skipBlanksM, if_pos (isBlank_of hb (by simp)), ih (fun x hx => hb x (by simp [hx]))]
    rw [List.length_cons]; congr 1; omega

/-! ### strings -/

theorem escUnicodeM_ok {p q : Nat} {s bs r : Bytes} (h : escUnicodeM p s = .ok (bs, q, r)) :
    r ≠ [] ∧ ∃ c, s = c ++ r ∧ q = p + 2 + c.length ∧ ∀ r', r' ≠ [] → escUnicodeM p (c ++ r') = .ok (bs, q, r') := by
  rcases s with _ | ⟨a, _ | ⟨b, _ | ⟨c, _ | ⟨d, _ | ⟨x, t⟩⟩⟩⟩⟩ <;> try cases h; done
  rw [escUnicodeM] at h
  obtain ⟨u, h1, h⟩ := bindM_ok h
  by_cases hr : u ≤ 0xD7FF ∨ u ≥ 0xE000
  · rw [if_pos hr] at h
    cases h
    refine ⟨by simp, [a, b, c, d], rfl, rfl, fun r' hr' => ?_⟩
    rcases r' with _ | ⟨y, r'⟩
    · exact absurd rfl hr'
    · simp only [List.cons_append, List.nil_append, escUnicodeM, h1, RM.bind_ok, if_pos hr]; rfl
  · rw [if_neg hr] at h
    rcases t with _ | ⟨q', _ | ⟨a', _ | ⟨b', _ | ⟨c', _ | ⟨d', _ | ⟨y, t⟩⟩⟩⟩⟩⟩ <;> try cases h; done
    dsimp only at h
    split at h
    · cases h
    · rename_i hx
      split at h
      · cases h
      · rename_i hq
        obtain ⟨ex, h2, h⟩ := bindM_ok h
        obtain ⟨w, h3, h⟩ := bindM_ok h
        cases h
        refine ⟨by simp, [a, b, c, d, x, q', a', b', c', d'], rfl, rfl, fun r' hr' => ?_⟩
        rcases r' with _ | ⟨y, r'⟩
        · exact absurd rfl hr'
        · simp only [List.cons_append, List.nil_append, escUnicodeM, h1, RM.bind_ok, if_neg hr, if_neg hx, if_neg hq, h2, h3]; rfl

theorem shiftM_ok {p q n : Nat} {s bs r : Bytes} (h : shiftM p s n = .ok (bs, q, r)) :
    s = bs ++ r ∧ bs.length = n ∧ q = p + n ∧ ∀ r', shiftM p (bs ++ r') n = .ok (bs, q, r') := by
  unfold shiftM at h
  split at h
  · cases h
  · rename_i hl
    cases h
    have hl' : (s.take n).length = n := by rw [List.length_take]; omega
    refine ⟨by simp, hl', rfl, fun r' => ?_⟩
    unfold shiftM
    rw [if_neg (by rw [List.length_append]; omega), List.take_left' hl', List.drop_left' hl']

theorem strStepM_ok {p q : Nat} {c : UInt8} {t bs r : Bytes} (h : strStepM p c t = .ok (some (bs, q, r))) :
    ∃ d, t = d ++ r ∧ q = p + 1 + d.length ∧ ∀ r', (r' = [] → r = []) → strStepM p c (d ++ r') = .ok (some (bs, q, r')) := by
  have sh : ∀ n, 0 < n → (do return some (← shiftM p (c :: t) n) : RM (Option (Bytes × Nat × Bytes))) = .ok (some (bs, q, r)) →
      ∃ d, t = d ++ r ∧ q = p + 1 + d.length ∧ ∀ r', (do return some (← shiftM p (c :: (d ++ r')) n) : RM (Option (Bytes × Nat × Bytes))) = .ok (some (bs, q, r')) := by
    intro n hn h
    obtain ⟨x, h1, h⟩ := bindM_ok h
    cases h
    obtain ⟨h2, h3, h4, h5⟩ := shiftM_ok h1
    rcases bs with _ | ⟨b, d⟩
    · simp at h3; omega
    · simp only [List.cons_append, List.cons.injEq] at h2
      obtain ⟨rfl, rfl⟩ := h2
      refine ⟨d, rfl, by simp at h3; omega, fun r' => ?_⟩
      have := h5 r'
      rw [List.cons_append] at this
      rw [this]; rfl
  unfold strStepM at h ⊢
  by_cases h5c : c = 0x5C
  · simp only [if_pos h5c] at h ⊢
    rcases t with _ | ⟨e, t⟩
    · cases h
    · dsimp only at h
      cases he : simpleEsc e with
      | some b =>
        rw [he] at h
        cases h
        exact ⟨[e], rfl, rfl, fun r' _ => by simp only [List.cons_append, List.nil_append, he]; rfl⟩
      | none =>
        rw [he] at h
        dsimp only at h
        split at h
        · rename_i h75
          obtain ⟨x, h1, h⟩ := bindM_ok h
          cases h
          obtain ⟨h2, d, rfl, h3, h4⟩ := escUnicodeM_ok h1
          refine ⟨e :: d, rfl, by rw [h3, List.length_cons]; omega, fun r' hr => ?_⟩
          simp only [List.cons_append, he, if_pos h75, h4 r' (fun h => h2 (hr h))]; rfl
        · cases h
  · simp only [if_neg h5c] at h ⊢
    split at h
    · cases h
    · rename_i h22
      simp only [if_neg h22]
      split at h
      · rename_i h7f
        cases h
        exact ⟨[], rfl, rfl, fun r' _ => by rw [if_pos h7f]; rfl⟩
      · rename_i h7f
        simp only [if_neg h7f]
        split at h
        · rename_i hl
          obtain ⟨d, g1, g2, g3⟩ := sh 2 (by omega) h
          exact ⟨d, g1, g2, fun r' _ => by rw [if_pos hl]; exact g3 r'⟩
        · rename_i hl
          simp only [if_neg hl]
          split at h
          · rename_i hl
            obtain ⟨d, g1, g2, g3⟩ := sh 3 (by omega) h
            exact ⟨d, g1, g2, fun r' _ => by rw [if_pos hl]; exact g3 r'⟩
          · rename_i hl
            simp only [if_neg hl]
            split at h
            · rename_i hl
              obtain ⟨d, g1, g2, g3⟩ := sh 4 (by omega) h
              exact ⟨d, g1, g2, fun r' _ => by rw [if_pos hl]; exact g3 r'⟩
            · cases h

theorem strStepM_none {p : Nat} {c : UInt8} {t : Bytes} (h : strStepM p c t = .ok none) : c = 0x22 := by
  have := strStepM_forget p c t
  rw [h] at this
  exact strStep_none this.symm

theorem strStepM_quote (p : Nat) (t : Bytes) : strStepM p 0x22 t = .ok none := by
  unfold strStepM; rw [if_neg (by decide), if_pos rfl]; rfl

theorem strLoopM_ok {f p q : Nat} {s acc bs r : Bytes} (h : strLoopM f p s acc = .ok (bs, q, r)) :
    ∃ c, c ≠ [] ∧ s = c ++ r ∧ q = p + c.length ∧ ∀ r', strLoopM f p (c ++ r') acc = .ok (bs, q, r') := by
  induction f generalizing p s acc with
  | zero => cases h
  | succ f ih =>
    rcases s with _ | ⟨c, t⟩
    · cases h
    · rw [strLoopM] at h
      obtain ⟨x, h1, hx⟩ := bindM_ok h
      clear h
      rcases x with _ | ⟨bs1, p1, t1⟩
      · cases hx
        cases strStepM_none h1
        exact ⟨[0x22], by simp, rfl, rfl, fun r' => by rw [List.cons_append, strLoopM, strStepM_quote]; rfl⟩
      · dsimp only at hx
        obtain ⟨d, rfl, h2, h3⟩ := strStepM_ok h1
        obtain ⟨c2, g0, rfl, g1, g2⟩ := ih hx
        refine ⟨c :: (d ++ c2), by simp, by simp, by rw [g1, h2]; simp; omega, fun r' => ?_⟩
        rw [List.cons_append, List.append_assoc, strLoopM, h3 (c2 ++ r') (fun h => by simp at h; exact absurd h.1 g0)]
        exact g2 r'

/-! ### numbers and literals -/

theorem numFault_byte {pos : Nat} {st : NumSt} {b : UInt8} {e : Err} (h : numStep pos st b = .err e) : NumFaultByte (numFault b) b ∧ NumChar b := by
  refine ⟨?_, Classical.byContradiction fun hno => by rw [(numStep_none pos st b).2 hno] at h; cases h⟩
  unfold numStep at h
  by_cases h1 : b = 0x30
  · subst h1; exact rfl
  · rw [if_neg h1] at h
    split at h
    · split at h <;> (try split at h) <;> cases h
    · by_cases h2 : b = 0x65 ∨ b = 0x45
      · unfold numFault; rw [if_neg h1, if_pos h2]; exact h2
      · rw [if_neg h2] at h
        by_cases h3 : b = 0x2B
        · unfold numFault; rw [if_neg h1, if_neg h2, if_pos h3]; exact h3
        · rw [if_neg h3] at h
          by_cases h4 : b = 0x2D
          · unfold numFault; rw [if_neg h1, if_neg h2, if_neg h3, if_pos h4]; exact h4
          · rw [if_neg h4] at h
            by_cases h5 : b = 0x2E
            · unfold numFault; rw [if_neg h1, if_neg h2, if_neg h3, if_neg h4]; exact h5
            · rw [if_neg h5] at h; cases h

theorem numLoopM_ok {p : Nat} {acc s text r : Bytes} {st st' : NumSt} (h : numLoopM p acc st s = .ok (st', text, r)) :
    NumEnd r ∧ ∃ c, text = acc ++ c ∧ s = c ++ r ∧ ∀ p' r', NumEnd r' → numLoopM p' acc st (c ++ r') = .ok (st', text, r') := by
  have fin : ∀ p' r', NumEnd r' → numLoopM p' acc st r' = .ok (st, acc, r') := fun p' r' hr => by
    rcases r' with _ | ⟨b', r'⟩
    · rfl
    · rw [numLoopM, (numStep_none acc.length st b').2 (hr b' r' rfl)]; rfl
  induction s generalizing acc st with
  | nil =>
    cases h
    exact ⟨(fun c t h => by cases h), [], by simp, rfl, fin⟩
  | cons b t ih =>
    rw [numLoopM] at h
    obtain ⟨x, h1, h⟩ := bindM_ok h
    have h1 := withMsg_ok h1
    cases x with
    | none =>
      cases h
      exact ⟨fun c t hc => by cases hc; exact (numStep_none _ _ _).1 h1, [], by simp, rfl, fin⟩
    | some st1 =>
      obtain ⟨h0, c, rfl, rfl, h4⟩ := ih h (fun p' r' hr => by
        rcases r' with _ | ⟨b', r'⟩
        · rfl
        · rw [numLoopM, (numStep_none (acc ++ [b]).length st1 b').2 (hr b' r' rfl)]; rfl)
      refine ⟨h0, b :: c, by simp, rfl, fun p' r' hr => ?_⟩
      rw [List.cons_append, numLoopM, h1]
      exact h4 p' r' hr

theorem numLoopM_err {p : Nat} {acc s : Bytes} {st : NumSt} {m : Msg} (h : numLoopM p acc st s = .err m) :
    ∃ c b t, s = c ++ b :: t ∧ m = .num (numFault b) (p + acc.length + c.length) ∧ NumFaultByte (numFault b) b ∧ (∀ x ∈ c, NumChar x) ∧ NumChar b ∧
      ∀ t', numLoopM p acc st (c ++ b :: t') = .err m := by
  induction s generalizing acc st with
  | nil => cases h
  | cons b t ih =>
    rw [numLoopM] at h
    rcases bindM_err h with h | ⟨x, h1, h⟩
    · obtain ⟨rfl, e, he⟩ := withMsg_err h
      obtain ⟨g1, g2⟩ := numFault_byte he
      refine ⟨[], b, t, rfl, rfl, g1, by simp, g2, fun t' => ?_⟩
      rw [List.nil_append, numLoopM, he]; rfl
    · have h1 := withMsg_ok h1
      cases x with
      | none => cases h
      | some st1 =>
        obtain ⟨c, b', t', rfl, rfl, g1, g2, g3, g4⟩ := ih h
        refine ⟨b :: c, b', t', rfl, by simp only [List.length_append, List.length_cons, List.length_nil]; congr 1; omega, g1, fun x hx => ?_, g3, fun t' => ?_⟩
        · rcases List.mem_cons.1 hx with rfl | hx
          · exact Classical.byContradiction fun hno => by rw [(numStep_none acc.length st x).2 hno] at h1; cases h1
          · exact g2 x hx
        · rw [List.cons_append, numLoopM, h1]
          exact g4 t'

theorem parseNumberM_ok {E : Env} {p q : Nat} {s text r : Bytes} {n : Num} (h : parseNumberM E p s = .ok (n, text, q, r)) :
    NumEnd r ∧ s = text ++ r ∧ q = p + text.length ∧ ∀ r', NumEnd r' → text ≠ [] → parseNumberM E p (text ++ r') = .ok (n, text, q, r') := by
  unfold parseNumberM at h
  obtain ⟨⟨st, text', rest⟩, h1, h⟩ := bindM_ok h
  obtain ⟨he, c, hc, hs, h2⟩ := numLoopM_ok h1
  rw [List.nil_append] at hc
  subst hc
  dsimp only at h
  split at h
  · rename_i hfl
    split at h
    · cases h
    · rename_i hdot
      obtain ⟨n', h3, h⟩ := bindM_ok h
      cases h
      refine ⟨he, hs, rfl, fun r' hr _ => ?_⟩
      unfold parseNumberM
      rw [h2 p r' hr]
      simp only [RM.bind_ok, if_pos hfl, if_neg hdot, h3]; rfl
  · rename_i hfl
    obtain ⟨b, h3, h⟩ := bindM_ok h
    have h3 := withMsg_ok h3
    split at h
    · cases h
    · rename_i hz
      split at h
      · cases h
      · rename_i hm
        obtain ⟨n', h4, h⟩ := bindM_ok h
        cases h
        refine ⟨he, hs, rfl, fun r' hr ht => ?_⟩
        unfold parseNumberM
        rw [h2 p r' hr]
        have hb : rd (text ++ r') 0 = .ok b := by
          rcases text with _ | ⟨b0, t0⟩
          · exact absurd rfl ht
          · rw [hs] at h3; exact h3
        rw [hb]
        simp only [RM.bind_ok, if_neg hfl, show (R.ok b).withMsg Msg.nilParameter = .ok b from rfl, if_neg hz, if_neg hm, h4]; rfl

theorem parseLitM_ok {p q : Nat} {s lit r : Bytes} {a b : Msg} (h : parseLitM p s lit a b = .ok (q, r)) :
    s = lit ++ r ∧ q = p + lit.length ∧ ∀ r', parseLitM p (lit ++ r') lit a b = .ok (q, r') := by
  unfold parseLitM at h
  split at h
  · cases h
  · split at h
    · rename_i h1 h2
      cases h
      refine ⟨?_, rfl, fun r' => ?_⟩
      · conv => lhs; rw [← List.take_append_drop lit.length s, h2]
      · unfold parseLitM
        rw [if_neg (by simp), if_pos (by simp)]
        simp
    · cases h

end JV
