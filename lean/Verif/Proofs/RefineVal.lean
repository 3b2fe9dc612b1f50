import Verif.Proofs.LexStr
import Verif.Spec.InPlace
/-! The buffer parser refines the functional parser: numbers, literals, arrays, objects. -/
namespace JV

theorem skipLoopB_rel (f : Nat) (pre s : Bytes) (hf : s.length < f) :
    skipLoopB (pre ++ s) f pre.length = .ok (pre.length + (s.length - (skipBlanks s).length), (skipBlanks s).isEmpty) ∧
    ∃ b, s = b ++ skipBlanks s := by
  induction f generalizing pre s with
  | zero => simp at hf
  | succ f ih =>
    match s with
    | [] => exact ⟨by simp [skipLoopB, skipBlanks], [], by simp [skipBlanks]⟩
    | c :: t =>
      have hlt : pre.length < (pre ++ c :: t).length := by simp
      simp only [skipLoopB, hlt, if_true, rd_app0, rd_zero, R.bind_ok]
      have hb : (c = 0x20 ∨ c = 0x0D ∨ c = 0x0A ∨ c = 0x09 ∨ c = 0x08) ↔ isBlank c = true := by
        simp [isBlank, or_assoc]
      by_cases h : isBlank c = true
      · simp only [hb, h, if_true, skipBlanks]
        have := ih (pre ++ [c]) t (by simp at hf; omega)
        simp only [List.length_append, List.length_singleton, List.append_assoc, List.singleton_append] at this
        obtain ⟨h1, b, h2⟩ := this
        refine ⟨?_, c :: b, by simp [← h2]⟩
        rw [h1]
        have : (skipBlanks t).length ≤ t.length := by
          have := congrArg List.length h2; simp at this; omega
        simp; omega
      · simp [hb, h, skipBlanks]

theorem skipBlanks_suffix (s : Bytes) : ∃ b, s = b ++ skipBlanks s :=
  (skipLoopB_rel (s.length + 1) [] s (by omega)).2

theorem skipBlanks_length (s : Bytes) : (skipBlanks s).length ≤ s.length := by
  obtain ⟨b, h⟩ := skipBlanks_suffix s
  have := congrArg List.length h; simp at this; omega

/-- `skipBlanks` on the buffer when something is left -/
theorem skipBlanksB_cons (pre s t : Bytes) (c : UInt8) (h : skipBlanks s = c :: t) :
    ∃ b, s = b ++ c :: t ∧ skipBlanksB (pre ++ s) pre.length = .ok ((pre ++ b).length, false) := by
  obtain ⟨h1, b, h2⟩ := skipLoopB_rel ((pre ++ s).length + 1) pre s (by simp; omega)
  refine ⟨b, by rw [← h]; exact h2, ?_⟩
  rw [skipBlanksB, h1, h]
  have := congrArg List.length h2
  rw [h] at this
  simp at this ⊢; omega

theorem skipBlanksB_nil (pre s : Bytes) (h : skipBlanks s = []) :
    ∃ o, skipBlanksB (pre ++ s) pre.length = .ok (o, true) := by
  have := (skipLoopB_rel ((pre ++ s).length + 1) pre s (by simp; omega)).1
  exact ⟨_, by rw [skipBlanksB, this, h]; rfl⟩

theorem skipBlanks_noquote {s b t : Bytes} {c : UInt8} (h : skipBlanks s = c :: t) (h2 : s = b ++ c :: t) : (0x22 : UInt8) ∉ b := by
  induction b generalizing s with
  | nil => simp
  | cons x b ih =>
    subst h2
    simp only [List.cons_append, skipBlanks] at h
    by_cases hx : isBlank x = true
    · rw [if_pos hx] at h
      have := ih h rfl
      simp only [List.mem_cons, not_or]
      refine ⟨?_, this⟩
      rintro rfl
      exact absurd hx (by decide)
    · rw [if_neg hx] at h
      have := congrArg List.length h
      simp at this; omega

theorem skipBlanks_noquote' {s : Bytes} (h : skipBlanks s = []) : (0x22 : UInt8) ∉ s := by
  induction s with
  | nil => simp
  | cons x b ih =>
    simp only [skipBlanks] at h
    by_cases hx : isBlank x = true
    · rw [if_pos hx] at h
      simp only [List.mem_cons, not_or]
      refine ⟨?_, ih h⟩
      rintro rfl
      exact absurd hx (by decide)
    · rw [if_neg hx] at h
      simp at h

theorem numLoop_noquote {acc s text rest : Bytes} {st st' : NumSt} (h : numLoop acc st s = .ok (st', text, rest))
    (ha : (0x22 : UInt8) ∉ acc) : (0x22 : UInt8) ∉ text := by
  induction s generalizing acc st with
  | nil =>
    simp only [numLoop, R.ok.injEq, Prod.mk.injEq] at h
    rw [← h.2.1]; exact ha
  | cons b t ih =>
    simp only [numLoop] at h
    match hn : numStep acc.length st b with
    | .ok none => simp only [hn, R.bind_ok, R.pure_eq, R.ok.injEq, Prod.mk.injEq] at h; rw [← h.2.1]; exact ha
    | .ok (some st1) =>
      simp only [hn, R.bind_ok] at h
      refine ih h ?_
      simp only [List.mem_append, List.mem_singleton, not_or]
      refine ⟨ha, ?_⟩
      rintro rfl
      simp [numStep, isDigit19] at hn
    | .err e => simp [hn] at h
    | .panic => simp [hn] at h
    | .diverge => simp [hn] at h

theorem parseNumber_noquote {E : Env} {s text rest : Bytes} {n : Num} (h : parseNumber E s = .ok (n, text, rest)) :
    (0x22 : UInt8) ∉ text := by
  unfold parseNumber at h
  match hn : numLoop [] {} s with
  | .ok (st, tx, rs) =>
    simp only [hn, R.bind_ok] at h
    have hq := numLoop_noquote hn (by simp)
    suffices tx = text by rw [← this]; exact hq
    split at h
    · split at h
      · simp at h
      · match hf : floatResult E tx with
        | .ok n => simp only [hf, R.bind_ok, R.pure_eq, R.ok.injEq, Prod.mk.injEq] at h; exact h.2.1
        | .err e => simp [hf] at h
        | .panic => simp [hf] at h
        | .diverge => simp [hf] at h
    · match hr : rd s 0 with
      | .ok b =>
        simp only [hr, R.bind_ok] at h
        split at h
        · simp at h
        · split at h
          · simp at h
          · match hf : intResult E st.negative tx.length st.integer with
            | .ok n => simp only [hf, R.bind_ok, R.pure_eq, R.ok.injEq, Prod.mk.injEq] at h; exact h.2.1
            | .err e => simp [hf] at h
            | .panic => simp [hf] at h
            | .diverge => simp [hf] at h
      | .err e => simp [hr] at h
      | .panic => simp [hr] at h
      | .diverge => simp [hr] at h
  | .err e => simp [hn] at h
  | .panic => simp [hn] at h
  | .diverge => simp [hn] at h

theorem numStep_ne (pos : Nat) (st : NumSt) (b : UInt8) : numStep pos st b ≠ .panic ∧ numStep pos st b ≠ .diverge := by
  unfold numStep
  constructor <;> (repeat' split) <;> simp

theorem numLoopB_rel (pre acc t : Bytes) (st : NumSt) (f : Nat) (hf : t.length < f) :
    match numLoop acc st t with
    | .ok (st', text, rest) => numLoopB (pre ++ acc ++ t) pre.length f (pre.length + acc.length) st
          = .ok (st', pre.length + text.length) ∧ acc ++ t = text ++ rest
    | .err e => numLoopB (pre ++ acc ++ t) pre.length f (pre.length + acc.length) st = .err e
    | .panic => False
    | .diverge => False := by
  induction t generalizing acc st f with
  | nil =>
    cases f with
    | zero => simp at hf
    | succ f => simp [numLoop, numLoopB]
  | cons b t ih =>
    cases f with
    | zero => simp at hf
    | succ f =>
      have hlt : pre.length + acc.length < (pre ++ acc ++ b :: t).length := by simp
      have hrd : rd (pre ++ acc ++ b :: t) (pre.length + acc.length) = .ok b := by
        have := rd_app0 (pre ++ acc) (b :: t); simpa using this
      simp only [numLoopB, numLoop, hlt, if_true, hrd, R.bind_ok, Nat.add_sub_cancel_left]
      match h : numStep acc.length st b with
      | .ok none => simp
      | .ok (some st') =>
        have := ih (acc ++ [b]) st' f (by simp at hf; omega)
        simp only [R.bind_ok]
        simpa [Nat.add_assoc] using this
      | .err e => simp
      | .panic => exact absurd h (numStep_ne _ _ _).1
      | .diverge => exact absurd h (numStep_ne _ _ _).2

theorem sub_app (pre m t : Bytes) : sub (pre ++ m ++ t) pre.length (pre.length + m.length) = m := by
  simp [sub]

theorem slice_app (pre m t : Bytes) : slice (pre ++ m ++ t) pre.length (pre.length + m.length) = .ok m := by
  unfold slice
  rw [if_pos (by simp [← Nat.add_assoc]), sub_app]

theorem floatResult_ne (E : Env) (t : Bytes) : floatResult E t ≠ .panic ∧ floatResult E t ≠ .diverge := by
  unfold floatResult; split <;> simp

theorem intResult_ne (E : Env) (neg : Bool) (n : Nat) (i : BitVec 64) :
    intResult E neg n i ≠ .panic ∧ intResult E neg n i ≠ .diverge := by
  unfold intResult negativeIntResult positiveIntResult
  constructor <;> (repeat' split) <;> simp

theorem parseNumberB_rel (E : Env) (pre : Bytes) (c : UInt8) (t : Bytes) :
    match parseNumber E (c :: t) with
    | .ok (n, text, rest) => parseNumberB E (pre ++ c :: t) pre.length = .ok (n, pre.length + text.length) ∧ c :: t = text ++ rest
    | .err e => parseNumberB E (pre ++ c :: t) pre.length = .err e
    | .panic => False
    | .diverge => False := by
  have h := numLoopB_rel pre [] (c :: t) {} ((pre ++ c :: t).length + 1) (by simp; omega)
  simp only [List.append_nil, List.length_nil, Nat.add_zero, List.nil_append] at h
  unfold parseNumber parseNumberB
  match hn : numLoop [] {} (c :: t), h with
  | .err e, h => simp only [h, R.bind_err]
  | .ok (st, text, rest), ⟨h, ht⟩ =>
    simp only [h, R.bind_ok, rd_app0, rd_zero, Nat.add_sub_cancel_left]
    have hsl : slice (pre ++ c :: t) pre.length (pre.length + text.length) = .ok text := by
      rw [ht, ← List.append_assoc]; exact slice_app pre text rest
    by_cases hfl : st.floated = true
    · simp only [hfl, if_true]
      by_cases hd : (st.dotGot && !st.intAfterDotGot) = true
      · simp only [hd, if_true]
      · rw [if_neg hd, if_neg hd]
        simp only [hsl, R.bind_ok]
        match hr : floatResult E text with
        | .ok n => simp [ht]
        | .err e => simp
        | .panic => exact absurd hr (floatResult_ne _ _).1
        | .diverge => exact absurd hr (floatResult_ne _ _).2
    · simp only [hfl]
      by_cases h1 : st.integer > 0#64 ∧ c = 0x30
      · simp only [h1, and_self, if_true]; simp
      · simp only [h1, if_false, Bool.false_eq_true]
        by_cases h2 : text.length = 1 ∧ ¬ (isDigit c = true)
        · simp [h2]
        · simp only [h2, if_false]
          match hr : intResult E st.negative text.length st.integer with
          | .ok n => simp only [R.bind_ok, hsl, R.pure_eq, true_and]; exact ht
          | .err e => simp
          | .panic => exact absurd hr (intResult_ne _ _ _ _).1
          | .diverge => exact absurd hr (intResult_ne _ _ _ _).2

theorem matchB_rel (pre s lit : Bytes) (h : lit.length ≤ s.length) :
    matchB (pre ++ s) pre.length lit = .ok (decide (s.take lit.length = lit)) := by
  induction lit generalizing pre s with
  | nil => simp [matchB]
  | cons b bs ih =>
    match s with
    | [] => simp at h
    | c :: t =>
      simp only [matchB, rd_app0, rd_zero, R.bind_ok]
      by_cases hc : c = b
      · subst hc
        have := ih (pre ++ [c]) t (by simpa using h)
        simp at this
        simp [this]
      · simp [hc]

theorem parseLitB_rel (pre s lit : Bytes) (e1 e2 : Err) :
    match parseLit s lit e1 e2 with
    | .ok rest => parseLitB (pre ++ s) pre.length lit e1 e2 = .ok (pre.length + lit.length) ∧ s = lit ++ rest
    | .err e => parseLitB (pre ++ s) pre.length lit e1 e2 = .err e
    | .panic => False
    | .diverge => False := by
  unfold parseLit parseLitB
  by_cases h : s.length < lit.length
  · simp [h]
  · have h' : ¬ ((pre ++ s).length < pre.length + lit.length) := by simp; omega
    simp only [h, h', if_false, matchB_rel pre s lit (by omega), R.bind_ok]
    by_cases hm : s.take lit.length = lit
    · simp only [hm, if_true, decide_true, R.pure_eq, true_and]
      have := List.take_append_drop lit.length s
      rw [hm] at this; exact this.symm
    · simp [hm]

mutual
/-- every reference of the value ends at or before `n` -/
def PV.upto (n : Nat) : PV → Prop
  | .str _ e => e ≤ n
  | .num _ e _ => e ≤ n
  | .bool _ => True
  | .null => True
  | .arr xs => PV.uptoL n xs
  | .obj _ kvs => PV.uptoE n kvs
def PV.uptoL (n : Nat) : List PV → Prop
  | [] => True
  | x :: xs => x.upto n ∧ PV.uptoL n xs
def PV.uptoE (n : Nat) : List PEnt → Prop
  | [] => True
  | ⟨_, e, _, v⟩ :: xs => e ≤ n ∧ v.upto n ∧ PV.uptoE n xs
end

theorem sub_stable (pre x : Bytes) (s e : Nat) (h : e ≤ pre.length) : sub (pre ++ x) s e = sub pre s e := by
  simp only [sub, ← List.drop_take]
  rw [List.take_append_of_le_length h]

mutual
theorem PV.res_stable (pre x : Bytes) (v : PV) (h : v.upto pre.length) : v.res (pre ++ x) = v.res pre := by
  match v with
  | .str s e => simp only [PV.upto] at h; simp [PV.res, sub_stable pre x s e h]
  | .num s e n => simp only [PV.upto] at h; simp [PV.res, sub_stable pre x s e h]
  | .bool b => rfl
  | .null => rfl
  | .arr xs => simp only [PV.upto] at h; simp [PV.res, PV.resL_stable pre x xs h]
  | .obj i kvs => simp only [PV.upto] at h; simp [PV.res, PV.resE_stable pre x kvs h]
theorem PV.resL_stable (pre x : Bytes) (vs : List PV) (h : PV.uptoL pre.length vs) : PV.resL (pre ++ x) vs = PV.resL pre vs := by
  match vs with
  | [] => rfl
  | v :: vs =>
    simp only [PV.uptoL] at h
    simp [PV.resL, PV.res_stable pre x v h.1, PV.resL_stable pre x vs h.2]
theorem PV.resE_stable (pre x : Bytes) (vs : List PEnt) (h : PV.uptoE pre.length vs) : PV.resE (pre ++ x) vs = PV.resE pre vs := by
  match vs with
  | [] => rfl
  | ⟨s, e, i, v⟩ :: vs =>
    simp only [PV.uptoE] at h
    simp [PV.resE, sub_stable pre x s e h.1, PV.res_stable pre x v h.2.1, PV.resE_stable pre x vs h.2.2]
end

mutual
theorem PV.upto_mono {n m : Nat} (hnm : n ≤ m) (v : PV) (h : v.upto n) : v.upto m := by
  match v with
  | .str s e => simp only [PV.upto] at h ⊢; omega
  | .num s e n => simp only [PV.upto] at h ⊢; omega
  | .bool b => trivial
  | .null => trivial
  | .arr xs => exact PV.uptoL_mono hnm xs h
  | .obj i kvs => exact PV.uptoE_mono hnm kvs h
theorem PV.uptoL_mono {n m : Nat} (hnm : n ≤ m) (vs : List PV) (h : PV.uptoL n vs) : PV.uptoL m vs := by
  match vs with
  | [] => trivial
  | v :: vs => exact ⟨PV.upto_mono hnm v h.1, PV.uptoL_mono hnm vs h.2⟩
theorem PV.uptoE_mono {n m : Nat} (hnm : n ≤ m) (vs : List PEnt) (h : PV.uptoE n vs) : PV.uptoE m vs := by
  match vs with
  | [] => trivial
  | ⟨s, e, i, v⟩ :: vs => exact ⟨Nat.le_trans h.1 hnm, PV.upto_mono hnm v h.2.1, PV.uptoE_mono hnm vs h.2.2⟩
end

theorem PV.resL_append (it : Bytes) (xs ys : List PV) : PV.resL it (xs ++ ys) = PV.resL it xs ++ PV.resL it ys := by
  induction xs with
  | nil => rfl
  | cons x xs ih => simp [PV.resL, ih]

theorem PV.uptoL_append (n : Nat) (xs ys : List PV) (hx : PV.uptoL n xs) (hy : PV.uptoL n ys) : PV.uptoL n (xs ++ ys) := by
  induction xs with
  | nil => exact hy
  | cons x xs ih => exact ⟨hx.1, ih hx.2⟩

theorem pAssign_res (it : Bytes) (s e : Nat) (id : BitVec 32) (v : PV) (kvs : List PEnt) :
    PV.resE it (pAssign it s e id v kvs) = assign ⟨sub it s e, id, v.res it⟩ (PV.resE it kvs) := by
  induction kvs with
  | nil => rfl
  | cons x xs ih =>
    obtain ⟨s', e', i', v'⟩ := x
    by_cases h : sub it s' e' = sub it s e
    · simp [pAssign, PV.resE, assign, h]
    · simp [pAssign, PV.resE, assign, h, ih]

theorem pAssign_upto (it : Bytes) (s e : Nat) (id : BitVec 32) (v : PV) (kvs : List PEnt) (n : Nat)
    (he : e ≤ n) (hv : v.upto n) (hk : PV.uptoE n kvs) : PV.uptoE n (pAssign it s e id v kvs) := by
  induction kvs with
  | nil => exact ⟨he, hv, trivial⟩
  | cons x xs ih =>
    obtain ⟨s', e', i', v'⟩ := x
    simp only [pAssign]
    split
    · exact ⟨he, hv, hk.2.2⟩
    · exact ⟨hk.1, hk.2.1, ih hk.2.2⟩

theorem utf8_short (r : Nat) : (Spec.utf8 r).length ≤ 4 := by
  unfold Spec.utf8
  split
  · simp
  · split
    · simp
    · split <;> simp

theorem lstr_short {body d : Bytes} (h : Spec.LStr body d) : d.length ≤ body.length := by
  induction h with
  | nil => simp
  | ascii c t d _ _ _ _ ih => simp; omega
  | multi c m t d _ _ _ ih => simp; omega
  | esc c b t d _ _ ih => simp; omega
  | uni e r t d h1 h2 _ ih =>
    obtain ⟨a, b, c, d', x3, x2, x1, x0, rfl, -⟩ := h1
    have := utf8_short r
    simp; omega
  | pair e1 e2 hi lo t d h1 h2 _ _ _ _ _ ih =>
    obtain ⟨a, b, c, d', x3, x2, x1, x0, rfl, -⟩ := h1
    obtain ⟨a, b, c, d', x3, x2, x1, x0, rfl, -⟩ := h2
    simp [Spec.utf8four] at *; omega

theorem _root_.Spec.Decoded.append {a a' b b' : Bytes} (h : Spec.Decoded a a') (h' : Spec.Decoded b b') : Spec.Decoded (a ++ b) (a' ++ b') := by
  induction h with
  | nil => exact h'
  | plain c s s' hc _ ih => exact .plain c _ _ hc ih
  | lit body d s s' hl _ ih =>
    have := Spec.Decoded.lit body d _ _ hl ih
    simpa using this

theorem _root_.Spec.Decoded.length {a a' : Bytes} (h : Spec.Decoded a a') : a'.length = a.length := by
  induction h with
  | nil => rfl
  | plain c s s' hc _ ih => simp [ih]
  | lit body d s s' hl _ ih => have := lstr_short hl; simp [ih]; omega

theorem _root_.Spec.Decoded.same {a : Bytes} (h : (0x22 : UInt8) ∉ a) : Spec.Decoded a a := by
  induction a with
  | nil => exact .nil
  | cons c a ih => exact .plain c _ _ (fun e => h (by simp [e])) (ih (fun e => h (by simp [e])))

/-- the text `s` was read up to `t'`, and `ext` now stands in the buffer in place of what was read -/
def Eaten (s ext t' : Bytes) : Prop := ∃ orig, s = orig ++ t' ∧ Spec.Decoded orig ext

theorem Eaten.trans {s s2 t' e1 e2 : Bytes} (h1 : Eaten s e1 s2) (h2 : Eaten s2 e2 t') : Eaten s (e1 ++ e2) t' := by
  obtain ⟨o1, rfl, f1⟩ := h1
  obtain ⟨o2, rfl, f2⟩ := h2
  exact ⟨o1 ++ o2, by simp, f1.append f2⟩

theorem Eaten.length {s ext t' : Bytes} (h : Eaten s ext t') : ext.length + t'.length = s.length := by
  obtain ⟨o, rfl, f⟩ := h
  simp [f.length]

theorem Eaten.same {s p t' : Bytes} (h : s = p ++ t') (hq : (0x22 : UInt8) ∉ p) : Eaten s p t' := ⟨p, h, .same hq⟩

/-- The buffer program's answer `(buffer, value, offset)` corresponds to value `v` and rest `t'`: the buffer up to `pre` is unchanged,
`ext` replaced as many bytes as were consumed, the rest is unchanged, and all references lie before the rest. -/
def ValRel (pre : Bytes) (s : Bytes) (v : V) (t' : Bytes) (r : Bytes × PV × Nat) : Prop :=
  ∃ ext pv, r = (pre ++ ext ++ t', pv, (pre ++ ext).length) ∧ Eaten s ext t' ∧
    pv.upto (pre ++ ext).length ∧ pv.res (pre ++ ext) = v

/-- the same for complete results -/
def ResRel (pre : Bytes) (s : Bytes) (a : R (V × Bytes)) (b : R (Bytes × PV × Nat)) : Prop :=
  match a with
  | .ok (v, t') => ∃ r, b = .ok r ∧ ValRel pre s v t' r
  | .err e => b = .err e
  | .panic => False
  | .diverge => b = .diverge

def ResRelO (pre : Bytes) (s : Bytes) (a : R (Option (V × Bytes))) (b : R (Option (Bytes × PV × Nat))) : Prop :=
  match a with
  | .ok none => b = .ok none
  | .ok (some (v, t')) => ∃ r, b = .ok (some r) ∧ ValRel pre s v t' r
  | .err e => b = .err e
  | .panic => False
  | .diverge => b = .diverge

/-- A string literal: `q` is its opening quote. -/
theorem parseStrB_rel (f : Nat) (pre : Bytes) (q : UInt8) (t : Bytes) :
    match strLoop f t [] with
    | .ok (s, t') => ∃ gap, parseStrB f (pre ++ q :: t) pre.length
          = .ok (pre ++ [q] ++ s ++ gap ++ t', pre.length + 1 + s.length, pre.length + 1 + s.length + gap.length)
          ∧ (q = 0x22 → Eaten (q :: t) ([q] ++ s ++ gap) t')
    | .err e => parseStrB f (pre ++ q :: t) pre.length = .err e
    | .panic => False
    | .diverge => parseStrB f (pre ++ q :: t) pre.length = .diverge := by
  have h := strLoopB_rel f (pre ++ [q]) [] [] t
  simp only [List.append_nil, List.nil_append, List.length_nil, Nat.add_zero] at h
  unfold parseStrB
  have e1 : pre ++ q :: t = pre ++ [q] ++ t := by simp
  have e2 : pre.length + 1 = (pre ++ [q]).length := by simp
  rw [e1, e2]
  match hs : strLoop f t [], h with
  | .ok (s, t'), ⟨g, h, h', h''⟩ =>
    simp only [List.length_nil, Nat.sub_zero] at h h''
    refine ⟨g.drop s.length, ?_, ?_⟩
    · rw [h]; simp
    · rintro rfl
      obtain ⟨body, dd, ht, hdd, hb⟩ := strLoop_sound hs
      simp only [List.nil_append] at hdd
      subst hdd
      have hg : g = body ++ [0x22] := by
        rw [ht, show body ++ 0x22 :: t' = (body ++ [0x22]) ++ t' by simp] at h'
        exact (List.append_cancel_right h').symm
      refine ⟨0x22 :: body ++ [0x22], by simp [ht], ?_⟩
      have := Spec.Decoded.lit body s [] [] hb .nil
      rw [hg, List.drop_append_of_le_length (lstr_short hb)]
      simpa using this
  | .err e, h => exact h
  | .diverge, h => exact h

theorem parseScalarB_rel (E : Env) (f : Nat) (pre : Bytes) (c : UInt8) (t : Bytes) :
    ResRelO pre (c :: t) (parseScalar E f c t) (parseScalarB E f (pre ++ c :: t) pre.length c) := by
  unfold parseScalar parseScalarB
  by_cases h1 : isNumStart c = true
  · simp only [h1, if_true]
    have h := parseNumberB_rel E pre c t
    match hn : parseNumber E (c :: t), h with
    | .ok (n, text, rest), ⟨h, ht⟩ =>
      simp only [h, R.bind_ok]
      refine ⟨_, rfl, text, .num pre.length (pre.length + text.length) n, ?_, ?_, ?_, ?_⟩
      · rw [ht]; simp
      · exact .same ht (parseNumber_noquote hn)
      · simp [PV.upto]
      · simp only [PV.res]
        have := sub_app pre text []
        simp only [List.append_nil] at this
        rw [this]
    | .err e, h => simp [h, ResRelO]
  · simp only [h1]
    by_cases h2 : c = 0x22
    · subst h2
      simp only [if_true]
      have h := parseStrB_rel f pre 0x22 t
      match hs : strLoop f t [], h with
      | .ok (s, t'), ⟨gap, h, hl⟩ =>
        rw [h]
        simp only [R.bind_ok]
        have e1 : pre ++ [0x22] ++ s ++ gap ++ t' = (pre ++ [0x22]) ++ s ++ (gap ++ t') := by simp
        have e2 : pre.length + 1 = (pre ++ [(0x22 : UInt8)]).length := by simp
        have hsl : slice (pre ++ [0x22] ++ s ++ gap ++ t') (pre.length + 1) (pre.length + 1 + s.length) = .ok s := by
          rw [e1, e2]; exact slice_app _ _ _
        rw [hsl]
        simp only [R.bind_ok]
        refine ⟨_, rfl, [0x22] ++ s ++ gap, .str (pre.length + 1) (pre.length + 1 + s.length), ?_, ?_, ?_, ?_⟩
        · simp; omega
        · exact hl rfl
        · simp [PV.upto]; omega
        · simp only [PV.res]
          have := sub_app (pre ++ [0x22]) s gap
          rw [← e2] at this
          rw [show pre ++ ([0x22] ++ s ++ gap) = pre ++ [0x22] ++ s ++ gap by simp, this]
      | .err e, h => rw [h]; simp [ResRelO]
      | .diverge, h => rw [h]; simp [ResRelO]
    · simp only [h2, if_false]
      have hlit : ∀ (lit : Bytes) (e1 e2 : Err) (v : PV) (v' : V), (0x22 : UInt8) ∉ lit → (∀ x n, v.res x = v' ∧ v.upto n) →
          ResRelO pre (c :: t) (do let rest ← parseLit (c :: t) lit e1 e2; pure (some (v', rest)))
            (do let e ← parseLitB (pre ++ c :: t) pre.length lit e1 e2; pure (some (pre ++ c :: t, v, e))) := by
        intro lit e1 e2 v v' hq hv
        have h := parseLitB_rel pre (c :: t) lit e1 e2
        match hp : parseLit (c :: t) lit e1 e2, h with
        | .ok rest, ⟨h, hc⟩ =>
          rw [h]
          simp only [R.bind_ok]
          refine ⟨_, rfl, lit, v, ?_, ?_, (hv [] _).2, (hv _ 0).1⟩
          · rw [hc]; simp
          · exact .same hc hq
        | .err e, h => rw [h]; simp [ResRelO]
      by_cases h3 : c = 0x74
      · simp only [h3, if_true]; rw [← h3]; exact hlit _ _ _ _ _ (by decide) (fun _ _ => ⟨rfl, trivial⟩)
      · simp only [h3, if_false]
        by_cases h4 : c = 0x66
        · simp only [h4, if_true]; rw [← h4]; exact hlit _ _ _ _ _ (by decide) (fun _ _ => ⟨rfl, trivial⟩)
        · simp only [h4, if_false]
          by_cases h5 : c = 0x6E
          · simp only [h5, if_true]; rw [← h5]; exact hlit _ _ _ _ _ (by decide) (fun _ _ => ⟨rfl, trivial⟩)
          · simp [h5, ResRelO]

theorem ValRel.trans {pre ext1 : Bytes} {s s2 : Bytes} {v : V} {t' : Bytes} {r : Bytes × PV × Nat}
    (h : ValRel (pre ++ ext1) s2 v t' r) (hl : Eaten s ext1 s2) : ValRel pre s v t' r := by
  obtain ⟨ext, pv, h1, h2, h3, h4⟩ := h
  refine ⟨ext1 ++ ext, pv, ?_, ?_, ?_, ?_⟩
  · rw [h1]; simp
  · exact hl.trans h2
  · simpa using h3
  · simpa using h4

theorem ResRel.trans {pre ext1 : Bytes} {s s2 : Bytes} {a : R (V × Bytes)} {b : R (Bytes × PV × Nat)}
    (h : ResRel (pre ++ ext1) s2 a b) (hl : Eaten s ext1 s2) : ResRel pre s a b := by
  match a, h with
  | .ok (v, t'), ⟨r, h1, h2⟩ => exact ⟨r, h1, h2.trans hl⟩
  | .err e, h => exact h
  | .diverge, h => exact h

/-- sequencing: a sub-value, then the rest of the loop -/
theorem ResRel.bind {pre s : Bytes} {a : R (V × Bytes)} {b : R (Bytes × PV × Nat)}
    {fa : V → Bytes → R (V × Bytes)} {fb : Bytes → PV → Nat → R (Bytes × PV × Nat)}
    (h : ResRel pre s a b)
    (hf : ∀ ext pv t', Eaten s ext t' → pv.upto (pre ++ ext).length →
        ResRel (pre ++ ext) t' (fa (pv.res (pre ++ ext)) t') (fb (pre ++ ext ++ t') pv (pre ++ ext).length)) :
    ResRel pre s (do let (v, t) ← a; fa v t) (do let (it, v, e) ← b; fb it v e) := by
  match a, h with
  | .ok (v, t'), ⟨r, h1, ext, pv, h2, h3, h4, h5⟩ =>
    subst h2; subst h5
    simp only [h1, R.bind_ok]
    exact (hf ext pv t' h3 h4).trans h3
  | .err e, h => simp only [ResRel] at h; simp [h, ResRel]
  | .diverge, h => simp only [ResRel] at h; simp [h, ResRel]

theorem ResRelO.bind {pre s : Bytes} {a : R (Option (V × Bytes))} {b : R (Option (Bytes × PV × Nat))}
    {fa : V → Bytes → R (V × Bytes)} {fb : Bytes → PV → Nat → R (Bytes × PV × Nat)} {x : Err}
    (h : ResRelO pre s a b)
    (hf : ∀ ext pv t', Eaten s ext t' → pv.upto (pre ++ ext).length →
        ResRel (pre ++ ext) t' (fa (pv.res (pre ++ ext)) t') (fb (pre ++ ext ++ t') pv (pre ++ ext).length)) :
    ResRel pre s
      (do match ← a with
          | some (v, t) => fa v t
          | none => .err x)
      (do match ← b with
          | some (it, v, e) => fb it v e
          | none => .err x) := by
  match a, h with
  | .ok none, h => simp only [ResRelO] at h; simp [h, ResRel]
  | .ok (some (v, t')), ⟨r, h1, ext, pv, h2, h3, h4, h5⟩ =>
    subst h2; subst h5
    simp only [h1, R.bind_ok]
    exact (hf ext pv t' h3 h4).trans h3
  | .err e, h => simp only [ResRelO] at h; simp [h, ResRel]
  | .diverge, h => simp only [ResRelO] at h; simp [h, ResRel]

/-- the state of the object loop refers to the buffer before the current offset -/
def ObjSt.upto (n : Nat) (st : ObjSt) : Prop :=
  (∀ s e, st.key = some (s, e) → s ≤ e ∧ e ≤ n) ∧ PV.uptoE n st.kvs

/-- what the object state reads as -/
def ObjSt.res (it : Bytes) (st : ObjSt) : OSt :=
  { key := st.key.map (fun p => sub it p.1 p.2), colon := st.colon, incr := st.incr, kvs := PV.resE it st.kvs }

theorem ObjSt.upto_mono {n m : Nat} (h : n ≤ m) (st : ObjSt) (hs : st.upto n) : st.upto m :=
  ⟨fun s e hk => ⟨(hs.1 s e hk).1, Nat.le_trans (hs.1 s e hk).2 h⟩, PV.uptoE_mono h _ hs.2⟩

theorem ObjSt.res_stable (pre x : Bytes) (st : ObjSt) (h : st.upto pre.length) : st.res (pre ++ x) = st.res pre := by
  unfold ObjSt.res
  rw [PV.resE_stable pre x _ h.2]
  cases hk : st.key with
  | none => rfl
  | some p =>
    obtain ⟨s, e⟩ := p
    simp [sub_stable pre x s e (h.1 s e hk).2]

theorem setMemberB_rel (pre t : Bytes) (st : ObjSt) (s e : Nat) (v : PV) (hs : st.upto pre.length) (hk : st.key = some (s, e))
    (hv : v.upto pre.length) :
    ∃ st', setMemberB (pre ++ t) st s e v = .ok st' ∧ st'.upto pre.length ∧
      st'.res pre = setMember (st.res pre) (sub pre s e) (v.res pre) := by
  have hse := hs.1 s e hk
  unfold setMemberB slice
  rw [if_pos ⟨hse.1, by simp; omega⟩]
  simp only [R.bind_ok, R.pure_eq, R.ok.injEq]
  refine ⟨_, rfl, ⟨by simp, ?_⟩, ?_⟩
  · exact pAssign_upto _ _ _ _ _ _ _ hse.2 hv hs.2
  · simp only [ObjSt.res, setMember, Option.map_none, OSt.mk.injEq, true_and]
    have h1 : PV.uptoE pre.length (pAssign (pre ++ t) s e (st.incr + 1) v st.kvs) :=
      pAssign_upto _ _ _ _ _ _ _ hse.2 hv hs.2
    rw [← PV.resE_stable pre t _ h1, pAssign_res, sub_stable _ _ _ _ hse.2, PV.res_stable _ _ _ hv,
      PV.resE_stable _ _ _ hs.2]

theorem loops_rel (E : Env) (f : Nat) :
    (∀ (pre t : Bytes) (acc : List PV), PV.uptoL pre.length acc →
      ResRel pre t (arrLoop E f t (PV.resL pre acc)) (arrLoopB E f (pre ++ t) pre.length acc)) ∧
    (∀ (pre t : Bytes) (st : ObjSt), st.upto pre.length →
      ResRel pre t (objLoop E f t (st.res pre)) (objLoopB E f (pre ++ t) pre.length st)) := by
  induction f with
  | zero => exact ⟨fun _ _ _ _ => rfl, fun _ _ _ _ => rfl⟩
  | succ f ih =>
    obtain ⟨iha, iho⟩ := ih
    -- appending an element and going on
    have hnext : ∀ (pre : Bytes) (acc : List PV), PV.uptoL pre.length acc → ∀ (ext : Bytes) (pv : PV) (t' : Bytes),
        pv.upto (pre ++ ext).length →
        ResRel (pre ++ ext) t' (arrLoop E f t' (PV.resL pre acc ++ [pv.res (pre ++ ext)]))
          (arrLoopB E f (pre ++ ext ++ t') (pre ++ ext).length (acc ++ [pv])) := by
      intro pre acc hacc ext pv t' hpv
      have := iha (pre ++ ext) t' (acc ++ [pv]) (PV.uptoL_append _ _ _ (PV.uptoL_mono (by simp) _ hacc) ⟨hpv, trivial⟩)
      rw [PV.resL_append, PV.resL_stable pre ext acc hacc] at this
      simpa [PV.resL] using this
    -- setting a member and going on
    have hset : ∀ (pre : Bytes) (st : ObjSt) (s e : Nat), st.upto pre.length → st.key = some (s, e) →
        ∀ (ext : Bytes) (pv : PV) (t' : Bytes), pv.upto (pre ++ ext).length →
        ResRel (pre ++ ext) t' (objLoop E f t' (setMember (st.res pre) (sub pre s e) (pv.res (pre ++ ext))))
          (do let st ← setMemberB (pre ++ ext ++ t') st s e pv
              objLoopB E f (pre ++ ext ++ t') (pre ++ ext).length st) := by
      intro pre st s e hst hk ext pv t' hpv
      obtain ⟨st', h1, h2, h3⟩ := setMemberB_rel (pre ++ ext) t' st s e pv (ObjSt.upto_mono (by simp) st hst) hk hpv
      rw [h1]
      simp only [R.bind_ok]
      have := iho (pre ++ ext) t' st' h2
      rw [h3, ObjSt.res_stable _ _ _ hst, sub_stable _ _ _ _ (hst.1 s e hk).2] at this
      exact this
    constructor
    · intro pre t acc hacc
      simp only [arrLoop, arrLoopB]
      match hsb : skipBlanks t with
      | [] =>
        simp only
        by_cases hlt : pre.length < (pre ++ t).length
        · obtain ⟨o, ho⟩ := skipBlanksB_nil pre t hsb
          rw [if_pos hlt, ho]
          simp [ResRel]
        · rw [if_neg hlt]; rfl
      | c :: t1 =>
        obtain ⟨b, hb, hsk⟩ := skipBlanksB_cons pre t t1 c hsb
        have hlt : pre.length < (pre ++ t).length := by rw [hb]; simp; omega
        have hrd : rd (pre ++ t) (pre ++ b).length = .ok c := by
          rw [hb, ← List.append_assoc, rd_app0]; rfl
        have hlen : t.length = b.length + (1 + t1.length) := by rw [hb]; simp; omega
        have hbq : (0x22 : UInt8) ∉ b := skipBlanks_noquote hsb hb
        have hbc : c ≠ 0x22 → Eaten t (b ++ [c]) t1 := fun hc => .same (by rw [hb]; simp) (by
          simp only [List.mem_append, List.mem_singleton, not_or]; exact ⟨hbq, fun e => hc e.symm⟩)
        have hbb : Eaten t b (c :: t1) := .same hb hbq
        have hacc' : PV.uptoL (pre ++ b).length acc := PV.uptoL_mono (by simp) _ hacc
        have hres : PV.resL (pre ++ b) acc = PV.resL pre acc := PV.resL_stable _ _ _ hacc
        rw [if_pos hlt, hsk]
        simp only [R.bind_ok, hrd, Bool.false_eq_true, if_false]
        have e1 : pre ++ t = (pre ++ b ++ [c]) ++ t1 := by rw [hb]; simp
        have e2 : (pre ++ b).length + 1 = (pre ++ b ++ [c]).length := by simp; omega
        have hacc'' : PV.uptoL (pre ++ b ++ [c]).length acc := PV.uptoL_mono (by simp) _ hacc
        have hres'' : PV.resL (pre ++ b ++ [c]) acc = PV.resL pre acc := by
          rw [PV.resL_stable _ _ _ hacc', hres]
        by_cases h1 : c = 0x5D
        · rw [if_pos h1, if_pos h1]
          refine ⟨_, rfl, b ++ [c], .arr acc, ?_, ?_, ?_, ?_⟩
          · rw [e1]; simp; omega
          · exact hbc (by rw [h1]; decide)
          · simpa [PV.upto] using hacc''
          · simp only [PV.res]; rw [← List.append_assoc, hres'']
        · rw [if_neg h1, if_neg h1]
          by_cases h2 : c = 0x2C
          · rw [if_pos h2, if_pos h2, e1, e2]
            have := iha (pre ++ b ++ [c]) t1 acc hacc''
            rw [hres'', List.append_assoc pre b [c]] at this
            rw [List.append_assoc pre b [c]]
            exact this.trans (hbc (by rw [h2]; decide))
          · rw [if_neg h2, if_neg h2]
            by_cases h3 : c = 0x7B
            · rw [if_pos h3, if_pos h3, e1, e2]
              have hsub := iho (pre ++ b ++ [c]) t1 {} ⟨by simp, trivial⟩
              have := ResRel.bind hsub (fa := fun v t => arrLoop E f t (PV.resL pre acc ++ [v]))
                (fb := fun it v e => arrLoopB E f it e (acc ++ [v]))
                (fun ext pv t' _ hpv => by
                  have := hnext (pre ++ b ++ [c]) acc hacc'' ext pv t' hpv
                  rw [hres''] at this; exact this)
              rw [List.append_assoc pre b [c]] at this ⊢
              exact this.trans (hbc (by rw [h3]; decide))
            · rw [if_neg h3, if_neg h3]
              by_cases h4 : c = 0x5B
              · rw [if_pos h4, if_pos h4, e1, e2]
                have hsub := iha (pre ++ b ++ [c]) t1 [] trivial
                have := ResRel.bind hsub (fa := fun v t => arrLoop E f t (PV.resL pre acc ++ [v]))
                  (fb := fun it v e => arrLoopB E f it e (acc ++ [v]))
                  (fun ext pv t' _ hpv => by
                    have := hnext (pre ++ b ++ [c]) acc hacc'' ext pv t' hpv
                    rw [hres''] at this; exact this)
                rw [List.append_assoc pre b [c]] at this ⊢
                exact this.trans (hbc (by rw [h4]; decide))
              · rw [if_neg h4, if_neg h4]
                have hsub := parseScalarB_rel E (f+1) (pre ++ b) c t1
                have := ResRelO.bind hsub (x := .rawBytesUnrecognized)
                  (fa := fun v t => arrLoop E f t (PV.resL pre acc ++ [v]))
                  (fb := fun it v e => arrLoopB E f it e (acc ++ [v]))
                  (fun ext pv t' _ hpv => by
                    have := hnext (pre ++ b) acc hacc' ext pv t' hpv
                    rw [hres] at this; exact this)
                rw [show pre ++ b ++ c :: t1 = pre ++ t by rw [hb]; simp] at this
                exact this.trans hbb
    · intro pre t st hst
      simp only [objLoop, objLoopB]
      match hsb : skipBlanks t with
      | [] =>
        simp only
        by_cases hlt : pre.length < (pre ++ t).length
        · obtain ⟨o, ho⟩ := skipBlanksB_nil pre t hsb
          rw [if_pos hlt, ho]
          simp [ResRel]
        · rw [if_neg hlt]; rfl
      | c :: t1 =>
        obtain ⟨b, hb, hsk⟩ := skipBlanksB_cons pre t t1 c hsb
        have hlt : pre.length < (pre ++ t).length := by rw [hb]; simp; omega
        have hrd : rd (pre ++ t) (pre ++ b).length = .ok c := by
          rw [hb, ← List.append_assoc, rd_app0]; rfl
        have hlen : t.length = b.length + (1 + t1.length) := by rw [hb]; simp; omega
        have hbq : (0x22 : UInt8) ∉ b := skipBlanks_noquote hsb hb
        have hbc : c ≠ 0x22 → Eaten t (b ++ [c]) t1 := fun hc => .same (by rw [hb]; simp) (by
          simp only [List.mem_append, List.mem_singleton, not_or]; exact ⟨hbq, fun e => hc e.symm⟩)
        have hbb : Eaten t b (c :: t1) := .same hb hbq
        have hst' : st.upto (pre ++ b).length := ObjSt.upto_mono (by simp) _ hst
        have hres : st.res (pre ++ b) = st.res pre := ObjSt.res_stable _ _ _ hst
        have hst'' : st.upto (pre ++ b ++ [c]).length := ObjSt.upto_mono (by simp) _ hst
        have hres'' : st.res (pre ++ b ++ [c]) = st.res pre := by
          rw [ObjSt.res_stable _ _ _ hst', hres]
        rw [if_pos hlt, hsk]
        simp only [R.bind_ok, hrd, Bool.false_eq_true, if_false]
        have e1 : pre ++ t = (pre ++ b ++ [c]) ++ t1 := by rw [hb]; simp
        have e2 : (pre ++ b).length + 1 = (pre ++ b ++ [c]).length := by simp; omega
        have hcolon : (st.res pre).colon = st.colon := rfl
        have hkey : (st.res pre).key = st.key.map (fun p => sub pre p.1 p.2) := rfl
        rw [hcolon]
        by_cases h1 : c = 0x7D
        · rw [if_pos h1, if_pos h1, hkey]
          cases hk : st.key with
          | some p => rfl
          | none =>
            simp only [Option.map_none]
            refine ⟨_, rfl, b ++ [c], .obj st.incr st.kvs, ?_, ?_, ?_, ?_⟩
            · rw [e1]; simp; omega
            · exact hbc (by rw [h1]; decide)
            · simpa [PV.upto] using hst''.2
            · simp only [PV.res]; rw [← List.append_assoc]
              have := congrArg OSt.kvs hres''
              simp only [ObjSt.res] at this
              rw [this]; rfl
        · rw [if_neg h1, if_neg h1]
          by_cases h2 : c = 0x2C
          · rw [if_pos h2, if_pos h2, hkey]
            cases hk : st.key with
            | some p => rfl
            | none =>
              simp only [Option.map_none]
              rw [e1, e2]
              have := iho (pre ++ b ++ [c]) t1 st hst''
              rw [hres'', List.append_assoc pre b [c]] at this
              rw [List.append_assoc pre b [c]]
              exact this.trans (hbc (by rw [h2]; decide))
          · rw [if_neg h2, if_neg h2]
            by_cases h3 : c = 0x3A
            · rw [if_pos h3, if_pos h3, hkey]
              by_cases hc : st.colon = true
              · rw [if_pos hc, if_pos hc]; rfl
              · rw [if_neg hc, if_neg hc]
                cases hk : st.key with
                | none => rfl
                | some p =>
                  simp only [Option.map_some]
                  rw [e1, e2]
                  have := iho (pre ++ b ++ [c]) t1 { st with colon := true } hst''
                  have hr2 : ({ st with colon := true } : ObjSt).res (pre ++ b ++ [c]) = { st.res pre with colon := true } := by
                    rw [← hres'']; rfl
                  rw [hr2, List.append_assoc pre b [c]] at this
                  rw [List.append_assoc pre b [c]]
                  simp only [hkey, hk, Option.map_some] at this
                  refine ResRel.trans (ext1 := b ++ [c]) (s2 := t1) this (hbc (by rw [h3]; decide))
            · rw [if_neg h3, if_neg h3]
              by_cases h4 : c = 0x22
              · rw [if_pos h4, if_pos h4, hkey]
                have hps := parseStrB_rel (f+1) (pre ++ b) c t1
                rw [show pre ++ b ++ c :: t1 = pre ++ t by rw [hb]; simp] at hps
                cases hk : st.key with
                | some p =>
                  obtain ⟨s, e⟩ := p
                  simp only [Option.map_some]
                  by_cases hc : (!st.colon) = true
                  · rw [if_pos hc, if_pos hc]; rfl
                  · rw [if_neg hc, if_neg hc]
                    match hs : strLoop (f+1) t1 [], hps with
                    | .ok (x, t'), ⟨gap, hp, hl⟩ =>
                      rw [hp]
                      simp only [R.bind_ok]
                      have e3 : pre ++ b ++ [c] ++ x ++ gap ++ t' = (pre ++ b ++ [c]) ++ x ++ (gap ++ t') := by simp
                      have hsl : slice (pre ++ b ++ [c] ++ x ++ gap ++ t') ((pre ++ b).length + 1) ((pre ++ b).length + 1 + x.length) = .ok x := by
                        rw [e3, e2]; exact slice_app _ _ _
                      rw [hsl]
                      simp only [R.bind_ok]
                      have hpv : (PV.str ((pre ++ b).length + 1) ((pre ++ b).length + 1 + x.length)).upto (pre ++ (b ++ [c] ++ x ++ gap)).length := by
                        simp [PV.upto]; omega
                      have hpr : (PV.str ((pre ++ b).length + 1) ((pre ++ b).length + 1 + x.length)).res (pre ++ (b ++ [c] ++ x ++ gap)) = .str x := by
                        simp only [PV.res]
                        rw [show pre ++ (b ++ [c] ++ x ++ gap) = (pre ++ b ++ [c]) ++ x ++ gap by simp, e2, sub_app]
                      have := hset pre st s e hst hk (b ++ [c] ++ x ++ gap) _ t' hpv
                      rw [hpr] at this
                      have e4 : pre ++ (b ++ [c] ++ x ++ gap) ++ t' = pre ++ b ++ [c] ++ x ++ gap ++ t' := by simp
                      have e5 : (pre ++ (b ++ [c] ++ x ++ gap)).length = (pre ++ b).length + 1 + x.length + gap.length := by
                        simp; omega
                      rw [e4, e5] at this
                      exact this.trans (by have := hbb.trans (hl h4); simpa using this)
                    | .err e, hp => rw [hp]; simp [ResRel]
                    | .diverge, hp => rw [hp]; simp [ResRel]
                | none =>
                  simp only [Option.map_none]
                  match hs : strLoop (f+1) t1 [], hps with
                  | .ok (x, t'), ⟨gap, hp, hl⟩ =>
                    rw [hp]
                    simp only [R.bind_ok]
                    have := iho (pre ++ (b ++ [c] ++ x ++ gap)) t' { st with key := some ((pre ++ b).length + 1, (pre ++ b).length + 1 + x.length) }
                      ⟨by
                        intro s e hse
                        simp only [Option.some.injEq, Prod.mk.injEq] at hse
                        obtain ⟨rfl, rfl⟩ := hse
                        simp; omega, PV.uptoE_mono (by simp) _ hst.2⟩
                    have hr2 : ({ st with key := some ((pre ++ b).length + 1, (pre ++ b).length + 1 + x.length) } : ObjSt).res (pre ++ (b ++ [c] ++ x ++ gap))
                        = { st.res pre with key := some x } := by
                      simp only [ObjSt.res, Option.map_some, OSt.mk.injEq, true_and, Option.some.injEq]
                      refine ⟨?_, PV.resE_stable _ _ _ hst.2⟩
                      rw [show pre ++ (b ++ [c] ++ x ++ gap) = (pre ++ b ++ [c]) ++ x ++ gap by simp, e2, sub_app]
                    rw [hr2] at this
                    have e4 : pre ++ (b ++ [c] ++ x ++ gap) ++ t' = pre ++ b ++ [c] ++ x ++ gap ++ t' := by simp
                    have e5 : (pre ++ (b ++ [c] ++ x ++ gap)).length = (pre ++ b).length + 1 + x.length + gap.length := by
                      simp; omega
                    rw [e4, e5] at this
                    exact this.trans (by have := hbb.trans (hl h4); simpa using this)
                  | .err e, hp => rw [hp]; simp [ResRel]
                  | .diverge, hp => rw [hp]; simp [ResRel]
              · rw [if_neg h4, if_neg h4]
                by_cases h5 : (c = 0x7B ∨ c = 0x5B ∨ isNumStart c = true ∨ c = 0x74 ∨ c = 0x66 ∨ c = 0x6E)
                · rw [if_pos h5, if_pos h5, hkey]
                  cases hk : st.key with
                  | none => rfl
                  | some p =>
                    obtain ⟨s, e⟩ := p
                    simp only [Option.map_some]
                    by_cases hc : (!st.colon) = true
                    · rw [if_pos hc, if_pos hc]; rfl
                    · rw [if_neg hc, if_neg hc]
                      have hkb : sub (pre ++ b ++ [c]) s e = sub pre s e := by
                        rw [List.append_assoc]; exact sub_stable _ _ _ _ (hst.1 s e hk).2
                      by_cases h6 : c = 0x7B
                      · rw [if_pos h6, if_pos h6, e1, e2]
                        have hsub := iho (pre ++ b ++ [c]) t1 {} ⟨by simp, trivial⟩
                        have := ResRel.bind hsub (fa := fun v t => objLoop E f t (setMember (st.res pre) (sub pre s e) v))
                          (fb := fun it v e' => do
                            let st ← setMemberB it st s e v
                            objLoopB E f it e' st)
                          (fun ext pv t' _ hpv => by
                            have := hset (pre ++ b ++ [c]) st s e hst'' hk ext pv t' hpv
                            rw [hres'', hkb] at this; exact this)
                        rw [List.append_assoc pre b [c]] at this ⊢
                        exact this.trans (hbc (by rw [h6]; decide))
                      · rw [if_neg h6, if_neg h6]
                        by_cases h7 : c = 0x5B
                        · rw [if_pos h7, if_pos h7, e1, e2]
                          have hsub := iha (pre ++ b ++ [c]) t1 [] trivial
                          have := ResRel.bind hsub (fa := fun v t => objLoop E f t (setMember (st.res pre) (sub pre s e) v))
                            (fb := fun it v e' => do
                              let st ← setMemberB it st s e v
                              objLoopB E f it e' st)
                            (fun ext pv t' _ hpv => by
                              have := hset (pre ++ b ++ [c]) st s e hst'' hk ext pv t' hpv
                              rw [hres'', hkb] at this; exact this)
                          rw [List.append_assoc pre b [c]] at this ⊢
                          exact this.trans (hbc (by rw [h7]; decide))
                        · rw [if_neg h7, if_neg h7]
                          have hsub := parseScalarB_rel E (f+1) (pre ++ b) c t1
                          have := ResRelO.bind hsub (x := .rawBytesUnrecognized)
                            (fa := fun v t => objLoop E f t (setMember (st.res pre) (sub pre s e) v))
                            (fb := fun it v e' => do
                              let st ← setMemberB it st s e v
                              objLoopB E f it e' st)
                            (fun ext pv t' _ hpv => by
                              have := hset (pre ++ b) st s e hst' hk ext pv t' hpv
                              rw [hres, sub_stable _ _ _ _ (hst.1 s e hk).2] at this; exact this)
                          rw [show pre ++ b ++ c :: t1 = pre ++ t by rw [hb]; simp] at this
                          exact this.trans hbb
                · rw [if_neg h5, if_neg h5]; rfl

end JV
