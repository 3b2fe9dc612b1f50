import Verif.Proofs.LexStr
import Verif.Proofs.Total
/-! The functional parser accepts exactly the lenient grammar. -/
namespace JV
open Spec

/-- the number a token is read as; only used for accepted tokens -/
def numOf (E : Env) (text : Bytes) : Num :=
  match parseNumber E text with
  | .ok (n, _, _) => n
  | _ => default

/-- number tokens the parser accepts -/
def NumTok (E : Env) (text : Bytes) : Prop :=
  (∃ c t, text = c :: t ∧ isNumStart c = true) ∧ ∃ n, parseNumber E text = .ok (n, text, [])

mutual
/-- the value built for a document -/
def toV (E : Env) : J → V
  | .null => .null
  | .bool b => .bool b
  | .num t => .num t (numOf E t)
  | .str s => .str s
  | .arr xs => .arr (toVL E xs)
  | .obj ms => .obj (toVM E ms {}).incr (toVM E ms {}).kvs none
def toVL (E : Env) : List J → List V
  | [] => []
  | x :: xs => toV E x :: toVL E xs
def toVM (E : Env) : List Mem → OSt → OSt
  | [], st => st
  | ⟨k, v⟩ :: ms, st => toVM E ms (setMember st k (toV E v))
end

theorem isBlank_iff (c : UInt8) : isBlank c = true ↔ (c = 0x20 ∨ c = 0x0D ∨ c = 0x0A ∨ c = 0x09 ∨ c = 0x08) := by
  simp [isBlank, or_assoc]

theorem skipBlanks_spec (s : Bytes) : ∃ b, s = b ++ skipBlanks s ∧ Blank b ∧ (∀ c t, skipBlanks s = c :: t → isBlank c = false) := by
  induction s with
  | nil => exact ⟨[], by simp [skipBlanks, Blank]⟩
  | cons c s ih =>
    obtain ⟨b, h1, h2, h3⟩ := ih
    unfold skipBlanks
    split
    · rename_i hb
      refine ⟨c :: b, by simp [← h1], ?_, h3⟩
      intro x hx
      rcases List.mem_cons.1 hx with rfl | hx
      · exact (isBlank_iff _).1 hb
      · exact h2 x hx
    · rename_i hb
      refine ⟨[], by simp, by simp [Blank], ?_⟩
      intro x t hx; simp at hx; simpa [hx.1] using hb

theorem skipBlanks_blank {b s : Bytes} (h : Blank b) : skipBlanks (b ++ s) = skipBlanks s := by
  induction b with
  | nil => rfl
  | cons c b ih =>
    have hc : isBlank c = true := (isBlank_iff c).2 (h c (by simp))
    simp only [List.cons_append, skipBlanks, hc, if_true]
    exact ih (fun x hx => h x (by simp [hx]))

theorem skipBlanks_nb {c : UInt8} {s : Bytes} (h : isBlank c = false) : skipBlanks (c :: s) = c :: s := by
  simp [skipBlanks, h]

theorem Blank_nil : Blank [] := by simp [Blank]
theorem Sep_nil : Spec.Sep [] := by simp [Spec.Sep]
theorem _root_.Spec.Blank.sep {b : Bytes} (h : Blank b) : Sep b := fun c hc => by
  rcases h c hc with h | h | h | h | h <;> simp [h]
theorem _root_.Spec.Sep.append {a b : Bytes} (h : Sep a) (h' : Sep b) : Sep (a ++ b) := fun c hc => by
  rcases List.mem_append.1 hc with hc | hc
  · exact h c hc
  · exact h' c hc
theorem _root_.Spec.Blank.append {a b : Bytes} (h : Blank a) (h' : Blank b) : Blank (a ++ b) := fun c hc => by
  rcases List.mem_append.1 hc with hc | hc
  · exact h c hc
  · exact h' c hc
theorem Sep_comma : Spec.Sep [0x2C] := by simp [Spec.Sep]

/-! number tokens -/

theorem numChar_facts : ∀ c : UInt8, (isDigit c = true ↔ Digit c) ∧ (isDigit19 c = true ↔ (0x31 ≤ c.toNat ∧ c.toNat ≤ 0x39)) := by
  intro c
  simp only [isDigit, isDigit19, Digit, Bool.and_eq_true, decide_eq_true_eq, UInt8.le_iff_toNat_le]
  exact ⟨Iff.rfl, Iff.rfl⟩

theorem numStep_none (pos : Nat) (st : NumSt) (b : UInt8) : numStep pos st b = .ok none ↔ ¬ NumChar b := by
  have hd : (b = 0x30 ∨ isDigit19 b = true) ↔ Digit b := by
    rw [(numChar_facts b).2, ← UInt8.toNat_inj]
    show b.toNat = 48 ∨ _ ↔ _
    unfold Digit; omega
  unfold NumChar
  rw [← hd]
  unfold numStep
  by_cases h0 : b = 0x30
  · rw [if_pos h0]
    simp only [h0, true_or, not_true_eq_false, iff_false]
    repeat' split
    all_goals simp
  rw [if_neg h0]
  by_cases h1 : isDigit19 b = true
  · rw [if_pos h1]
    simp only [h1, or_true, true_or, not_true_eq_false, iff_false]
    repeat' split
    all_goals simp
  rw [if_neg h1]
  by_cases h2 : b = 0x65 ∨ b = 0x45
  · rw [if_pos h2]
    have : (b = 0x30 ∨ isDigit19 b = true) ∨ b = 0x2B ∨ b = 0x2D ∨ b = 0x2E ∨ b = 0x65 ∨ b = 0x45 := by
      rcases h2 with h2 | h2 <;> simp [h2]
    simp only [this, not_true_eq_false, iff_false]
    repeat' split
    all_goals simp
  rw [if_neg h2]
  by_cases h3 : b = 0x2B
  · rw [if_pos h3]
    have : (b = 0x30 ∨ isDigit19 b = true) ∨ b = 0x2B ∨ b = 0x2D ∨ b = 0x2E ∨ b = 0x65 ∨ b = 0x45 := by simp [h3]
    simp only [this, not_true_eq_false, iff_false]
    repeat' split
    all_goals simp
  rw [if_neg h3]
  by_cases h4 : b = 0x2D
  · rw [if_pos h4]
    have : (b = 0x30 ∨ isDigit19 b = true) ∨ b = 0x2B ∨ b = 0x2D ∨ b = 0x2E ∨ b = 0x65 ∨ b = 0x45 := by simp [h4]
    simp only [this, not_true_eq_false, iff_false]
    repeat' split
    all_goals simp
  rw [if_neg h4]
  by_cases h5 : b = 0x2E
  · rw [if_pos h5]
    have : (b = 0x30 ∨ isDigit19 b = true) ∨ b = 0x2B ∨ b = 0x2D ∨ b = 0x2E ∨ b = 0x65 ∨ b = 0x45 := by simp [h5]
    simp only [this, not_true_eq_false, iff_false]
    repeat' split
    all_goals simp
  rw [if_neg h5]
  have h6 : b ≠ 0x65 := fun h => h2 (.inl h)
  have h7 : b ≠ 0x45 := fun h => h2 (.inr h)
  simp [h0, h1, h6, h7, h3, h4, h5]

theorem numLoop_split {acc s text rest : Bytes} {st st' : NumSt} (h : numLoop acc st s = .ok (st', text, rest)) :
    NumEnd rest ∧ ∃ t, s = t ++ rest ∧ text = acc ++ t ∧ numLoop acc st t = .ok (st', text, []) := by
  induction s generalizing acc st with
  | nil =>
    simp only [numLoop, R.ok.injEq, Prod.mk.injEq] at h
    obtain ⟨rfl, rfl, rfl⟩ := h
    exact ⟨fun c t h => by simp at h, [], by simp [numLoop]⟩
  | cons b t ih =>
    simp only [numLoop] at h
    match hn : numStep acc.length st b with
    | .ok none =>
      simp only [hn, R.bind_ok, R.pure_eq, R.ok.injEq, Prod.mk.injEq] at h
      obtain ⟨rfl, rfl, rfl⟩ := h
      refine ⟨fun c u h => ?_, [], by simp [numLoop]⟩
      simp only [List.cons.injEq] at h
      rw [← h.1]; exact (numStep_none _ _ _).1 hn
    | .ok (some st1) =>
      simp only [hn, R.bind_ok] at h
      obtain ⟨h1, u, rfl, h3, h4⟩ := ih h
      exact ⟨h1, b :: u, by simp, by simp [h3], by simp only [numLoop, hn, R.bind_ok, h4]⟩
    | .err e => simp [hn] at h
    | .panic => simp [hn] at h
    | .diverge => simp [hn] at h

theorem numLoop_join {acc t text rest : Bytes} {st st' : NumSt} (hr : NumEnd rest) (h : numLoop acc st t = .ok (st', text, [])) :
    numLoop acc st (t ++ rest) = .ok (st', text, rest) := by
  induction t generalizing acc st with
  | nil =>
    simp only [numLoop, R.ok.injEq, Prod.mk.injEq, and_true] at h
    obtain ⟨rfl, rfl⟩ := h
    match rest with
    | [] => rfl
    | b :: u =>
      simp only [List.nil_append, numLoop, (numStep_none acc.length st b).2 (hr b u rfl), R.bind_ok, R.pure_eq]
  | cons b t ih =>
    simp only [numLoop, List.cons_append] at h ⊢
    match hn : numStep acc.length st b with
    | .ok none => simp [hn] at h
    | .ok (some st1) => simp only [hn, R.bind_ok] at h ⊢; exact ih h
    | .err e => simp [hn] at h
    | .panic => simp [hn] at h
    | .diverge => simp [hn] at h

theorem numLoop_chars {acc t text : Bytes} {st st' : NumSt} (h : numLoop acc st t = .ok (st', text, [])) : ∀ x ∈ t, NumChar x := by
  induction t generalizing acc st with
  | nil => simp
  | cons b t ih =>
    rw [numLoop] at h
    match hs : numStep acc.length st b with
    | .ok none => rw [hs] at h; simp at h
    | .ok (some st1) =>
      rw [hs] at h
      intro x hx
      rcases List.mem_cons.1 hx with rfl | hx
      · apply Classical.byContradiction
        intro hno
        rw [(numStep_none acc.length st x).2 hno] at hs
        cases hs
      · exact ih h x hx
    | .err e => rw [hs] at h; simp at h
    | .panic => rw [hs] at h; simp at h
    | .diverge => rw [hs] at h; simp at h

/-- `parseNumber` after the scan -/
def finishNumber (E : Env) (st : NumSt) (text : Bytes) (first : UInt8) : R Num :=
  if st.floated then
    if st.dotGot && !st.intAfterDotGot then .err .other else floatResult E text
  else if st.integer > 0#64 ∧ first = 0x30 then .err .other
  else if text.length = 1 ∧ ¬ (isDigit first) then .err .other
  else intResult E st.negative text.length st.integer

theorem parseNumber_eq (E : Env) (c : UInt8) (t : Bytes) :
    parseNumber E (c :: t) = (do
      let (st, text, rest) ← numLoop [] {} (c :: t)
      let n ← finishNumber E st text c
      pure (n, text, rest)) := by
  unfold parseNumber finishNumber
  match numLoop [] {} (c :: t) with
  | .ok (st, text, rest) =>
    simp only [R.bind_ok, rd_zero]
    repeat' split
    all_goals first | rfl | simp
  | .err e => rfl
  | .panic => rfl
  | .diverge => rfl

theorem parseNumber_split {E : Env} {c : UInt8} {t text rest : Bytes} {n : Num} (hc : isNumStart c = true)
    (h : parseNumber E (c :: t) = .ok (n, text, rest)) :
    c :: t = text ++ rest ∧ NumEnd rest ∧ NumTok E text ∧ n = numOf E text := by
  rw [parseNumber_eq] at h
  match hn : numLoop [] {} (c :: t) with
  | .ok (st, text', rest') =>
    simp only [hn, R.bind_ok] at h
    match hf : finishNumber E st text' c with
    | .ok m =>
      simp only [hf, R.bind_ok, R.pure_eq, R.ok.injEq, Prod.mk.injEq] at h
      obtain ⟨rfl, rfl, rfl⟩ := h
      obtain ⟨h1, u, h2, h3, h4⟩ := numLoop_split hn
      simp only [List.nil_append] at h3
      subst h3
      have hu : ∃ u', text' = c :: u' := by
        obtain ⟨st1, hs⟩ := numStep_start hc
        have hs' : numStep ([] : Bytes).length {} c = .ok (some st1) := hs
        simp only [numLoop, hs', R.bind_ok] at hn
        obtain ⟨-, w, -, hw, -⟩ := numLoop_split hn
        exact ⟨w, by simp [hw]⟩
      obtain ⟨u', rfl⟩ := hu
      have hp : parseNumber E (c :: u') = .ok (m, c :: u', []) := by
        rw [parseNumber_eq, h4]; simp only [R.bind_ok, hf, R.pure_eq]
      exact ⟨h2, h1, ⟨⟨c, u', rfl, hc⟩, m, hp⟩, by simp [numOf, hp]⟩
    | .err e => simp [hf] at h
    | .panic => simp [hf] at h
    | .diverge => simp [hf] at h
  | .err e => simp [hn] at h
  | .panic => simp [hn] at h
  | .diverge => simp [hn] at h

theorem parseNumber_join {E : Env} {c : UInt8} {t rest : Bytes} (h : NumTok E (c :: t)) (hr : NumEnd rest) :
    parseNumber E (c :: t ++ rest) = .ok (numOf E (c :: t), c :: t, rest) := by
  obtain ⟨-, n, hn⟩ := h
  have hno : numOf E (c :: t) = n := by simp [numOf, hn]
  rw [hno]
  rw [parseNumber_eq] at hn
  rw [List.cons_append, parseNumber_eq]
  match hl : numLoop [] {} (c :: t) with
  | .ok (st, text', rest') =>
    simp only [hl, R.bind_ok] at hn
    match hf : finishNumber E st text' c with
    | .ok m =>
      simp only [hf, R.bind_ok, R.pure_eq, R.ok.injEq, Prod.mk.injEq] at hn
      obtain ⟨rfl, rfl, rfl⟩ := hn
      rw [← List.cons_append, numLoop_join hr hl]
      simp only [R.bind_ok, hf, R.pure_eq]
    | .err e => simp [hf] at hn
    | .panic => simp [hf] at hn
    | .diverge => simp [hf] at hn
  | .err e => simp [hl] at hn
  | .panic => simp [hl] at hn
  | .diverge => simp [hl] at hn

/-! soundness: what is accepted is in the grammar -/

theorem parseLit_sound {s lit rest : Bytes} {e1 e2 : Err} (h : parseLit s lit e1 e2 = .ok rest) : s = lit ++ rest := by
  unfold parseLit at h
  split at h
  · simp at h
  · split at h
    · rename_i h2
      simp only [R.ok.injEq] at h
      rw [← h]; have := List.take_append_drop lit.length s; rw [h2] at this; exact this.symm
    · simp at h

theorem parseLit_complete (lit rest : Bytes) (e1 e2 : Err) : parseLit (lit ++ rest) lit e1 e2 = .ok rest := by
  simp [parseLit]

theorem parseScalar_sound {E : Env} {f : Nat} {c : UInt8} {t t' : Bytes} {v : V} (h : parseScalar E f c t = .ok (some (v, t'))) :
    ∃ txt j, c :: t = txt ++ t' ∧ LVal (NumTok E) txt j ∧ v = toV E j ∧ Follow j t' := by
  unfold parseScalar at h
  have hlit : ∀ (lit : Bytes) (e1 e2 : Err) (v' : V) (j : J),
      (do let rest ← parseLit (c :: t) lit e1 e2; pure (some (v', rest)) : R (Option (V × Bytes))) = .ok (some (v, t')) →
      LVal (NumTok E) lit j → v' = toV E j → (∀ x, Follow j x) →
      ∃ txt j, c :: t = txt ++ t' ∧ LVal (NumTok E) txt j ∧ v = toV E j ∧ Follow j t' := by
    intro lit e1 e2 v' j h hl hv hF
    match hp : parseLit (c :: t) lit e1 e2 with
    | .ok rest =>
      simp only [hp, R.bind_ok, R.pure_eq, R.ok.injEq, Option.some.injEq, Prod.mk.injEq] at h
      obtain ⟨rfl, rfl⟩ := h
      exact ⟨lit, j, parseLit_sound hp, hl, hv, hF _⟩
    | .err e => simp [hp] at h
    | .panic => simp [hp] at h
    | .diverge => simp [hp] at h
  split at h
  · rename_i hc
    match hn : parseNumber E (c :: t) with
    | .ok (n, text, rest) =>
      simp only [hn, R.bind_ok, R.pure_eq, R.ok.injEq, Option.some.injEq, Prod.mk.injEq] at h
      obtain ⟨rfl, rfl⟩ := h
      obtain ⟨h1, h2, h3, rfl⟩ := parseNumber_split hc hn
      exact ⟨text, .num text, h1, .num _ h3, by simp [toV], h2⟩
    | .err e => simp [hn] at h
    | .panic => simp [hn] at h
    | .diverge => simp [hn] at h
  · split at h
    · rename_i hc
      match hs : strLoop f t [] with
      | .ok (d, t1) =>
        simp only [hs, R.bind_ok, R.pure_eq, R.ok.injEq, Option.some.injEq, Prod.mk.injEq] at h
        obtain ⟨rfl, rfl⟩ := h
        obtain ⟨body, dd, rfl, hd, hb⟩ := strLoop_sound hs
        simp only [List.nil_append] at hd
        subst hd
        exact ⟨0x22 :: body ++ [0x22], .str d, by simp [hc], .str _ _ hb, by simp [toV], trivial⟩
      | .err e => simp [hs] at h
      | .panic => simp [hs] at h
      | .diverge => simp [hs] at h
    · split at h
      · exact hlit _ _ _ _ (.bool true) h .tru (by simp [toV]) (fun _ => trivial)
      · split at h
        · exact hlit _ _ _ _ (.bool false) h .fls (by simp [toV]) (fun _ => trivial)
        · split at h
          · exact hlit _ _ _ _ .null h .null (by simp [toV]) (fun _ => trivial)
          · simp at h

theorem LElems_sep {P : Bytes → Prop} {p body : Bytes} {xs : List J} (hp : Sep p) (h : LElems P body xs) : LElems P (p ++ body) xs := by
  cases h with
  | nil s hs => rw [← List.append_assoc]; exact .nil _ (hp.append hs)
  | cons s t ts v vs hs h1 h2 h3 =>
    have : p ++ (s ++ t ++ ts) = (p ++ s) ++ t ++ ts := by simp
    rw [this]; exact .cons _ _ _ _ _ (hp.append hs) h1 h2 h3

theorem LMems_sep {P : Bytes → Prop} {p body : Bytes} {xs : List Mem} (hp : Sep p) (h : LMems P body xs) : LMems P (p ++ body) xs := by
  cases h with
  | nil s hs => rw [← List.append_assoc]; exact .nil _ (hp.append hs)
  | cons s k b1 b2 t ts d v vs hs h1 h2 h3 h4 h5 h6 =>
    have : p ++ (s ++ 0x22 :: k ++ 0x22 :: b1 ++ 0x3A :: b2 ++ t ++ ts) = (p ++ s) ++ 0x22 :: k ++ 0x22 :: b1 ++ 0x3A :: b2 ++ t ++ ts := by simp
    rw [this]; exact .cons _ _ _ _ _ _ _ _ _ (hp.append hs) h1 h2 h3 h4 h5 h6

theorem LElems_ne {P : Bytes → Prop} {body : Bytes} {xs : List J} (h : LElems P body xs) : body ≠ [] := by
  have := @LElems.rec P (fun _ _ _ => True) (fun b _ _ => b ≠ []) (fun _ _ _ => True)
    trivial trivial trivial (fun _ _ => trivial) (fun _ _ _ => trivial) (fun _ _ _ _ => trivial) (fun _ _ _ _ => trivial)
    (fun _ _ => by simp) (fun _ _ _ _ _ _ _ _ _ _ ih => by simp_all) (fun _ _ => trivial)
    (fun _ _ _ _ _ _ _ _ _ _ _ _ _ _ _ _ _ _ => trivial) body xs h
  exact this

theorem LMems_ne {P : Bytes → Prop} {body : Bytes} {xs : List Mem} (h : LMems P body xs) : body ≠ [] := by
  cases h <;> simp

theorem Follow_app {j : J} {a b : Bytes} (ha : a ≠ []) : Follow j (a ++ b) ↔ Follow j a := by
  cases j <;> simp only [Follow]
  unfold NumEnd
  cases a with
  | nil => simp at ha
  | cons c a => simp

theorem loops_sound (E : Env) (f : Nat) :
    (∀ s acc v t', arrLoop E f s acc = .ok (v, t') →
      ∃ body xs, s = body ++ t' ∧ LElems (NumTok E) body xs ∧ v = .arr (acc ++ toVL E xs)) ∧
    (∀ s st v t', objLoop E f s st = .ok (v, t') →
      match st.key, st.colon with
      | none, false => ∃ body ms, s = body ++ t' ∧ LMems (NumTok E) body ms ∧ v = .obj (toVM E ms st).incr (toVM E ms st).kvs none
      | some k, false => ∃ b1 b2 txt j body ms, s = b1 ++ 0x3A :: b2 ++ txt ++ body ++ t' ∧ Blank b1 ∧ Blank b2 ∧
          LVal (NumTok E) txt j ∧ LMems (NumTok E) body ms ∧ Follow j body ∧
          v = .obj (toVM E ms (setMember st k (toV E j))).incr (toVM E ms (setMember st k (toV E j))).kvs none
      | some k, true => ∃ b2 txt j body ms, s = b2 ++ txt ++ body ++ t' ∧ Blank b2 ∧
          LVal (NumTok E) txt j ∧ LMems (NumTok E) body ms ∧ Follow j body ∧
          v = .obj (toVM E ms (setMember st k (toV E j))).incr (toVM E ms (setMember st k (toV E j))).kvs none
      | none, true => True) := by
  induction f with
  | zero => exact ⟨fun s acc v t' h => by simp [arrLoop] at h, fun s acc v t' h => by simp [objLoop] at h⟩
  | succ f ih =>
    obtain ⟨iha, iho⟩ := ih
    constructor
    · intro s acc v t' h
      simp only [arrLoop] at h
      obtain ⟨b, hb, hbl, -⟩ := skipBlanks_spec s
      match hsb : skipBlanks s with
      | [] => simp [hsb] at h
      | c :: t =>
        rw [hsb] at hb
        simp only [hsb] at h
        -- continuation after one element
        have next : ∀ (txt : Bytes) (j : J) (t1 : Bytes), c :: t = txt ++ t1 → LVal (NumTok E) txt j → Follow j t1 →
            arrLoop E f t1 (acc ++ [toV E j]) = .ok (v, t') →
            ∃ body xs, s = body ++ t' ∧ LElems (NumTok E) body xs ∧ v = .arr (acc ++ toVL E xs) := by
          intro txt j t1 h1 h2 h3 h4
          obtain ⟨body, xs, rfl, hx, rfl⟩ := iha _ _ _ _ h4
          refine ⟨b ++ txt ++ body, j :: xs, by rw [hb, h1]; simp, .cons _ _ _ _ _ hbl.sep h2 hx ((Follow_app (LElems_ne hx)).1 h3), by simp [toVL]⟩
        split at h
        · rename_i hc
          simp only [R.pure_eq, R.ok.injEq, Prod.mk.injEq] at h
          obtain ⟨rfl, rfl⟩ := h
          exact ⟨b ++ [0x5D], [], by rw [hb, hc]; simp, .nil _ hbl.sep, by simp [toVL]⟩
        · split at h
          · rename_i hc
            obtain ⟨body, xs, rfl, hx, rfl⟩ := iha _ _ _ _ h
            exact ⟨(b ++ [0x2C]) ++ body, xs, by rw [hb, hc]; simp, LElems_sep (hbl.sep.append Sep_comma) hx, rfl⟩
          · split at h
            · rename_i hc
              match ho : objLoop E f t {} with
              | .ok (w, t1) =>
                simp only [ho, R.bind_ok] at h
                obtain ⟨body, ms, rfl, hm, rfl⟩ := iho _ _ _ _ ho
                exact next (0x7B :: body) (.obj ms) t1 (by rw [hc]; simp) (.obj _ _ hm) trivial (by rw [toV]; exact h)
              | .err e => rw [ho] at h; simp at h
              | .panic => rw [ho] at h; simp at h
              | .diverge => rw [ho] at h; simp at h
            · split at h
              · rename_i hc
                match ho : arrLoop E f t [] with
                | .ok (w, t1) =>
                  simp only [ho, R.bind_ok] at h
                  obtain ⟨body, ms, rfl, hm, rfl⟩ := iha _ _ _ _ ho
                  exact next (0x5B :: body) (.arr ms) t1 (by rw [hc]; simp) (.arr _ _ hm) trivial (by rw [toV]; exact h)
                | .err e => rw [ho] at h; simp at h
                | .panic => rw [ho] at h; simp at h
                | .diverge => rw [ho] at h; simp at h
              · match ho : parseScalar E (f+1) c t with
                | .ok (some (w, t1)) =>
                  simp only [ho, R.bind_ok] at h
                  obtain ⟨txt, j, h1, h2, rfl, h3⟩ := parseScalar_sound ho
                  exact next txt j t1 h1 h2 h3 h
                | .ok none => rw [ho] at h; simp at h
                | .err e => rw [ho] at h; simp at h
                | .panic => rw [ho] at h; simp at h
                | .diverge => rw [ho] at h; simp at h
    · intro s st v t' h
      simp only [objLoop] at h
      obtain ⟨b, hb, hbl, -⟩ := skipBlanks_spec s
      obtain ⟨key, colon, incr, kvs⟩ := st
      match hsb : skipBlanks s with
      | [] => simp [hsb] at h
      | c :: t =>
        rw [hsb] at hb
        simp only [hsb] at h
        -- continuation after a member's value
        have next : ∀ (k : Bytes) (txt : Bytes) (j : J) (t1 : Bytes), c :: t = txt ++ t1 → LVal (NumTok E) txt j → Follow j t1 →
            objLoop E f t1 (setMember ⟨some k, true, incr, kvs⟩ k (toV E j)) = .ok (v, t') →
            ∃ b2 txt j body ms, s = b2 ++ txt ++ body ++ t' ∧ Blank b2 ∧
              LVal (NumTok E) txt j ∧ LMems (NumTok E) body ms ∧ Follow j body ∧
              v = .obj (toVM E ms (setMember ⟨some k, true, incr, kvs⟩ k (toV E j))).incr (toVM E ms (setMember ⟨some k, true, incr, kvs⟩ k (toV E j))).kvs none := by
          intro k txt j t1 h1 h2 h3 h4
          obtain ⟨body, ms, rfl, hx, rfl⟩ := iho _ _ _ _ h4
          exact ⟨b, txt, j, body, ms, by rw [hb, h1]; simp, hbl, h2, hx, (Follow_app (LMems_ne hx)).1 h3, rfl⟩
        split at h
        · rename_i hc
          split at h
          · simp at h
          · simp only [R.pure_eq, R.ok.injEq, Prod.mk.injEq] at h
            obtain ⟨rfl, rfl⟩ := h
            cases colon
            · exact ⟨b ++ [0x7D], [], by rw [hb, hc]; simp, .nil _ hbl.sep, by simp [toVM]⟩
            · trivial
        · split at h
          · rename_i hc
            split at h
            · simp at h
            · cases colon
              · obtain ⟨body, xs, rfl, hx, rfl⟩ := iho _ _ _ _ h
                exact ⟨(b ++ [0x2C]) ++ body, xs, by rw [hb, hc]; simp, LMems_sep (hbl.sep.append Sep_comma) hx, rfl⟩
              · trivial
          · split at h
            · rename_i hc
              split at h
              · simp at h
              · rename_i hcol
                simp only [Bool.not_eq_true] at hcol
                subst hcol
                split at h
                · simp at h
                · rename_i k
                  obtain ⟨b2, txt, j, body, ms, rfl, g1, g2, g3, g4, rfl⟩ := iho _ _ _ _ h
                  exact ⟨b, b2, txt, j, body, ms, by rw [hb, hc]; simp, hbl, g1, g2, g3, g4, rfl⟩
            · split at h
              · rename_i hc
                split at h
                · rename_i k
                  split at h
                  · simp at h
                  · rename_i hcol
                    simp only [Bool.not_eq_true', Bool.not_eq_false] at hcol
                    subst hcol
                    match hs : strLoop (f+1) t [] with
                    | .ok (d, t1) =>
                      simp only [hs, R.bind_ok] at h
                      obtain ⟨body, dd, rfl, rfl, hbd⟩ := strLoop_sound hs
                      exact next k (0x22 :: body ++ [0x22]) (.str d) t1 (by rw [hc]; simp) (.str _ _ hbd) trivial (by rw [toV]; exact h)
                    | .err e => simp [hs] at h
                    | .panic => simp [hs] at h
                    | .diverge => simp [hs] at h
                · cases colon
                  · match hs : strLoop (f+1) t [] with
                    | .ok (d, t1) =>
                      simp only [hs, R.bind_ok] at h
                      obtain ⟨kt, dd, rfl, rfl, hbd⟩ := strLoop_sound hs
                      obtain ⟨b1, b2, txt, j, body, ms, rfl, g0, g1, g2, g3, g4, rfl⟩ := iho _ _ _ _ h
                      refine ⟨b ++ 0x22 :: kt ++ 0x22 :: b1 ++ 0x3A :: b2 ++ txt ++ body, ⟨d, j⟩ :: ms, by rw [hb, hc]; simp,
                        .cons _ _ _ _ _ _ _ _ _ hbl.sep hbd g0 g1 g2 g3 g4, ?_⟩
                      simp only [toVM, setMember]
                    | .err e => simp [hs] at h
                    | .panic => simp [hs] at h
                    | .diverge => simp [hs] at h
                  · trivial
              · split at h
                · split at h
                  · simp at h
                  · rename_i k
                    split at h
                    · simp at h
                    · rename_i hcol
                      simp only [Bool.not_eq_true', Bool.not_eq_false] at hcol
                      subst hcol
                      split at h
                      · rename_i hc
                        match ho : objLoop E f t {} with
                        | .ok (w, t1) =>
                          simp only [ho, R.bind_ok] at h
                          obtain ⟨body, ms, rfl, hm, rfl⟩ := iho _ _ _ _ ho
                          exact next k (0x7B :: body) (.obj ms) t1 (by rw [hc]; simp) (.obj _ _ hm) trivial (by rw [toV]; exact h)
                        | .err e => rw [ho] at h; simp at h
                        | .panic => rw [ho] at h; simp at h
                        | .diverge => rw [ho] at h; simp at h
                      · split at h
                        · rename_i hc
                          match ho : arrLoop E f t [] with
                          | .ok (w, t1) =>
                            simp only [ho, R.bind_ok] at h
                            obtain ⟨body, ms, rfl, hm, rfl⟩ := iha _ _ _ _ ho
                            exact next k (0x5B :: body) (.arr ms) t1 (by rw [hc]; simp) (.arr _ _ hm) trivial (by rw [toV]; exact h)
                          | .err e => rw [ho] at h; simp at h
                          | .panic => rw [ho] at h; simp at h
                          | .diverge => rw [ho] at h; simp at h
                        · match ho : parseScalar E (f+1) c t with
                          | .ok (some (w, t1)) =>
                            simp only [ho, R.bind_ok] at h
                            obtain ⟨txt, j, h1, h2, rfl, h3⟩ := parseScalar_sound ho
                            exact next k txt j t1 h1 h2 h3 h
                          | .ok none => rw [ho] at h; simp at h
                          | .err e => rw [ho] at h; simp at h
                          | .panic => rw [ho] at h; simp at h
                          | .diverge => rw [ho] at h; simp at h
                · simp at h

end JV
