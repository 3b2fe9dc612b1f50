import Verif.Proofs.IeeeNum
import Verif.Props.GoApi
/-!
C81: Float64() of a parsed number. C82: Int64() and Uint64() of a literal with a fraction or exponent. C83: Float32(). C84: float32 numbers survive Marshal
and Unmarshal. And for which float64 numbers C61 holds.

All theorems speak about every environment in which Go's functions on floats do what they are documented to do (`Ieee E`, `GoDigits O`); such
environments exist (`ieeeEnv_ok`, `goDigitsFn_ok`).
-/
namespace JV
open Spec

example : Ieee (ieeeEnv sampleEnv) ∧ GoDigits goDigitsFn := ⟨ieeeEnv_ok _, goDigitsFn_ok⟩

/-- the number `t`, `n` is the parsed value `v` or found in it by Get -/
def FoundIn (E : Env) (v : V) (t : Bytes) (n : Num) : Prop := v = .num t n ∨ ∃ cl ps, (getC E cl v ps).2 = .ok (.num t n)

theorem found_parsed {E : Env} {s x : Bytes} {v : V} (h : goUnmarshal E s = .ok (x, v, none)) {t : Bytes} {n : Num} (hg : FoundIn E v t n) :
    NumTok E t ∧ n = numOf E t := by
  rcases hg with rfl | ⟨cl, ps, hg⟩
  · exact unmarshal_num_text (her_unmarshal_readNum (goUnmarshal_ok.1 h).2 [] _ rfl t n rfl)
  · exact get_parsed (goUnmarshal_ok.1 h).2 hg

/-! ### C81 -/

/-- C81 as stated: false, see the counterexample. -/
def C81_statement : Prop := ∀ (E : Env), Ieee E → ∀ (s x : Bytes) (v : V) (t : Bytes) (n : Num), goUnmarshal E s = .ok (x, v, none) →
  FoundIn E v t n → ShortExp t →
  ∃ q b, TextValue t q ∧ Nearest double q.abs b ∧ b < double.inf ∧ float64 E (.num t n) = .ok (pack (t.head? == some 0x2D) b)

/-- Float64() of a number anywhere in a parsed document is the float64 nearest to the number written, with its sign (also -0.0), if it is not an integer from 2^64
on. -/
theorem C81_partial (E : Env) (hE : Ieee E) (s x : Bytes) (v : V) (t : Bytes) (n : Num) (h : goUnmarshal E s = .ok (x, v, none))
    (hg : FoundIn E v t n) (hs : ShortExp t) (hw : Digits t → decVal t < 2 ^ 64) :
    ∃ q b, TextValue t q ∧ Nearest double q.abs b ∧ b < double.inf ∧ float64 E (.num t n) = .ok (pack (t.head? == some 0x2D) b) := by
  obtain ⟨h1, rfl⟩ := found_parsed h hg
  obtain ⟨q, b, h2, h3, h4, h5⟩ := token_f64 hE h1 hs hw
  exact ⟨q, b, h2, h3, h4, congrArg R.ok h5⟩

/-- A literal with a fraction or an exponent is accepted exactly if the number is below 2^1024 - 2^970, half way from the largest float64 to the number that would
follow, and no zero of the integer part (but the first digit) follows digits whose value is a multiple of 2^64. -/
theorem C81_range (E : Env) (hE : Ieee E) (neg : Bool) (ip t : Bytes) (q : Rat) (hj : JFloat neg ip t) (hs : ShortExp t) (hq : TextValue t q) :
    (∃ w, goUnmarshal E t = .ok (t, w, none)) ↔ q.abs < ((2 ^ 1024 - 2 ^ 970 : Nat) : Rat) ∧ ZerosOK ip := by
  obtain ⟨b, h1, h2⟩ := hE.parse t q hq hs
  have hb : b = double.inf ↔ ¬ q.abs < ((2 ^ 1024 - 2 ^ 970 : Nat) : Rat) := by
    have e : double.val (double.inf - 1) + double.val double.inf = ((2 ^ 1024 - 2 ^ 970 : Nat) : Rat) * 2 := by decide +kernel
    have hi : double.inf - 1 + 1 = double.inf := by decide
    constructor
    · rintro rfl
      have := (nearest_bounds h1).2 (double.inf - 1) (by decide)
      grind
    · intro hge
      by_cases hlt : b < double.inf
      · exfalso
        have h3 := (nearest_bounds h1).1 hlt
        have h4 := double.val_le (show b ≤ double.inf - 1 by omega)
        have h5 := double.val_le (show b + 1 ≤ double.inf by omega)
        -- half way: the even one is infinity
        have h6 : q.abs * 2 = double.val b + double.val (b + 1) ∧ double.val b = double.val (double.inf - 1) := by
          constructor <;> apply Rat.le_antisymm <;> grind
        have h7 := val_inj h6.2
        rcases (nearest_iff.1 h1).2.1 hlt with h8 | ⟨-, h8⟩
        · grind
        · rw [h7] at h8
          exact absurd h8 (by decide)
      · have := h1.le
        omega
  have hnone : E.parseFloat t ≠ none ↔ q.abs < ((2 ^ 1024 - 2 ^ 970 : Nat) : Rat) := by
    rw [h2]
    by_cases hlt : q.abs < ((2 ^ 1024 - 2 ^ 970 : Nat) : Rat)
    · rw [if_neg (fun h => hb.1 h hlt)]; simp [hlt]
    · rw [if_pos (hb.2 hlt)]; simp [hlt]
  have htok := jfloat_tok_iff (E := E) hj
  rw [hnone] at htok
  rw [and_comm, ← htok]
  constructor
  · rintro ⟨w, hw⟩
    obtain ⟨⟨c, u, rfl, hc⟩, hch⟩ := jnum_shape (t := t) (.inr ⟨neg, ip, hj⟩)
    exact (unmarshal_number (by rcases hc with hc | rfl; (· simp [isNumStart, (numChar_facts c).1.2 hc]); (· rfl)) (fun x hx => hch x (by simp [hx])) (goUnmarshal_ok.1 hw).2).1
  · exact fun h => ⟨_, goUnmarshal_ok.2 ⟨rfl, unmarshal_numTok h⟩⟩

/-- `30000000000000000000` is read as 11553255926290448384, which is not the nearest float64. -/
theorem C81_counterexample : ¬ C81_statement := by
  intro h
  obtain ⟨-, w, h1, -, h2⟩ := C61_wraps (ieeeEnv sampleEnv)
  have hd : Digits (asc "30000000000000000000") := digits_of (by decide +kernel)
  obtain ⟨-, rfl⟩ := unmarshal_intText (neg := false) hd (by decide +kernel) (goUnmarshal_ok.1 h1).2
  obtain ⟨q, b, h3, h4, h5, h6⟩ := h _ (ieeeEnv_ok sampleEnv) _ _ _ _ _ h1 (.inl rfl) (shortExp_none (notE_digits hd))
  obtain ⟨q', h7, h8, -⟩ := intText_value false hd (by decide +kernel)
  rw [textValue_unique h3 h7, h8] at h4
  have hh := h6.symm.trans h2
  obtain ⟨b', h9, h10⟩ := (ieeeEnv_ok sampleEnv).u64 11553255926290448384#64
  rw [h10] at hh
  have hge : 0x43F0000000000000 ≤ b := nearest_ge h4 (by decide) (by decide +kernel)
  have hle : b' ≤ 0x43E8000000000000 := nearest_le h9 (by decide) (by decide +kernel)
  have e := congrArg magnitude (R.ok.inj hh)
  have hm : ((asc "30000000000000000000").head? == some 0x2D) = false := by decide +kernel
  have hs : sign false ++ asc "30000000000000000000" = asc "30000000000000000000" := rfl
  rw [hs, hm, (magnitude_pack (by have := inf_lt63; omega)).1, (magnitude_pack (by omega)).1] at e
  omega

-- 1.5 in a document
example : let E := ieeeEnv sampleEnv
    ShortExp (asc "1.5") ∧ (Digits (asc "1.5") → decVal (asc "1.5") < 2 ^ 64) ∧ ∃ v, goUnmarshal E (asc "1.5") = .ok (asc "1.5", v, none) ∧ ∃ n, FoundIn E v (asc "1.5") n := by
  intro E
  have hs : ShortExp (asc "1.5") := shortExp_none (by decide +kernel)
  have hj : JFloat false (asc "1") (asc "1.5") := ⟨asc ".5", [], .inr ⟨0x31, [], by decide +kernel, by decide, by decide, by simp [Digits]⟩,
    .inr ⟨asc "5", by decide +kernel, by decide +kernel, digits_of (by decide +kernel)⟩, .inl rfl, by decide +kernel, by decide +kernel⟩
  have hq : TextValue (asc "1.5") _ := TextValue.mk false (asc "1") (asc ".5") (asc "5") [] 0 (digits_of (by decide +kernel)) (digits_of (by decide +kernel))
    (.inr (by decide +kernel)) (by decide +kernel) (.inl ⟨rfl, rfl⟩)
  obtain ⟨w, hw⟩ := (C81_range E (ieeeEnv_ok _) false _ _ _ hj hs hq).2 ⟨by decide +kernel, zerosOK_of_lt (digits_of (by decide +kernel)) (by decide +kernel) (by
    intro c u h
    exact absurd (congrArg List.length h) (by rw [show (asc "1").length = 1 from by decide +kernel]; simp))⟩
  refine ⟨hs, fun _ => by decide +kernel, w, hw, ?_⟩
  obtain ⟨-, h⟩ := unmarshal_number (E := E) (c := 0x31) (u := asc ".5") (by decide) (by
    intro x hx
    have : x = 0x2E ∨ x = 0x35 := by simpa [show asc ".5" = [0x2E, 0x35] by decide +kernel] using hx
    rcases this with rfl | rfl <;> (unfold NumChar Digit; decide)) (goUnmarshal_ok.1 hw).2
  exact ⟨_, .inl h⟩

/-! ### C82 -/

/-- digits with or without a sign -/
def IntText (t : Bytes) : Prop := ∃ neg ds, t = sign neg ++ ds ∧ Digits ds

/-- C82 as stated: false, see the counterexample. -/
def C82_statement : Prop := ∀ (E : Env), Ieee E → ∀ (s x : Bytes) (v : V) (t : Bytes) (n : Num) (i : Int), goUnmarshal E s = .ok (x, v, none) → FoundIn E v t n →
  ShortExp t → TextValue t (i : Rat) →
  (-2 ^ 63 ≤ i → i < 2 ^ 63 - 512 → ∃ r, int64 E (.num t n) = .ok r ∧ r.toInt = i) ∧ (0 ≤ i → i < 2 ^ 64 - 1024 → ∃ r, uint64 E (.num t n) = .ok r ∧ (r.toNat : Int) = i)

theorem textQ_sign (t : Bytes) : ∃ A, 0 ≤ A ∧ textQ t = (if (t.head? == some 0x2D) = true then -1 else 1) * A := by
  have key : ∀ (ip ds : Bytes) (x : Int), 0 ≤ ((decVal ip : Rat) + (decVal ds : Rat) / (10 : Rat) ^ ds.length) * (10 : Rat) ^ x := by
    intro ip ds x
    refine Rat.mul_nonneg ?_ (Rat.le_of_lt (ten_pos x))
    have h1 : (0 : Rat) ≤ (decVal ip : Rat) := Rat.natCast_nonneg
    have h2 : (0 : Rat) ≤ (decVal ds : Rat) / (10 : Rat) ^ ds.length := by
      have := ten_pos (ds.length : Int)
      rw [Rat.zpow_natCast] at this
      refine Rat.le_of_mul_le_mul_right (c := (10 : Rat) ^ ds.length) ?_ this
      rw [Rat.div_mul_cancel (by grind), Rat.zero_mul]
      exact Rat.natCast_nonneg
    grind
  unfold textQ
  simp only
  rw [Rat.mul_assoc]
  exact ⟨_, key _ _ _, rfl⟩

theorem textValue_sign {t : Bytes} {q : Rat} (h : TextValue t q) : if (t.head? == some 0x2D) = true then q ≤ 0 else 0 ≤ q := by
  obtain ⟨A, h1, h2⟩ := textQ_sign t
  rw [textValue_eq h, h2]
  split <;> grind

theorem int_abs (i : Int) : ((i : Rat)).abs = (i.natAbs : Rat) := by
  by_cases h : 0 ≤ i
  · rw [Rat.abs_of_nonneg (Rat.intCast_nonneg.2 h)]
    exact congrArg (fun j : Int => (j : Rat)) (show i = (i.natAbs : Int) by omega)
  · rw [Rat.abs_of_nonpos (Rat.intCast_nonpos.2 (by omega)), ← Rat.intCast_neg]
    exact congrArg (fun j : Int => (j : Rat)) (show -i = (i.natAbs : Int) by omega)

theorem int_inj {i j : Int} (h : (i : Rat) = (j : Rat)) : i = j := by
  have := congrArg Rat.num h
  simpa using this

/-- the float64 of a literal that stands for an integer -/
theorem intLit_f64 {E : Env} (hE : Ieee E) {t : Bytes} {i : Int} (h1 : NumTok E t) (hs : ShortExp t) (hq : TextValue t (i : Rat)) (hn : ¬ IntText t) :
    ∃ f b m, Nearest double (i.natAbs : Rat) b ∧ b < double.inf ∧ numOf E t = floatNum E f ∧ double.val b = ((m : Nat) : Rat) ∧
      magnitude f < double.inf ∧ trunc (floatValue f) = if i < 0 then -(m : Int) else m := by
  rcases (numTok_iff hE.syntax' t).1 h1 with ⟨neg, ds, rfl, hi⟩ | ⟨neg, ip, fp, ep, hf, hp⟩
  · exact absurd ⟨neg, ds, rfl, hi.1⟩ hn
  · obtain ⟨b, h2, h3⟩ := hE.parse t _ hq hs
    rw [int_abs] at h2
    have hb : b ≠ double.inf := fun h => hp (by rw [h3, if_pos h])
    have hlt : b < double.inf := by have := h2.le; omega
    rw [if_neg hb] at h3
    obtain ⟨m, hm⟩ := nearest_nat h2 hlt
    refine ⟨_, b, m, h2, hlt, (floatTok_ok hf h3).2, hm, ?_, ?_⟩
    · rw [(magnitude_pack (by have := inf_lt63; omega)).1]; exact hlt
    · rw [floatValue_pack (by have := inf_lt63; omega), hm]
      have hsg := textValue_sign hq
      by_cases hh : (t.head? == some 0x2D) = true
      · rw [if_pos hh] at hsg ⊢
        have hle : i ≤ 0 := Rat.intCast_nonpos.1 hsg
        have e : (-1 : Rat) * (m : Rat) = ((-(m : Int) : Int) : Rat) := by
          rw [Rat.intCast_neg]
          show _ = - (m : Rat)
          grind
        rw [e, trunc_int]
        by_cases h0 : i < 0
        · rw [if_pos h0]
        · rw [if_neg h0]
          obtain rfl : i = 0 := by omega
          have : b = 0 := Nat.le_zero.1 (nearest_le h2 (Nat.zero_le _) (by rw [double.val_zero]; exact Rat.le_refl))
          rw [this, double.val_zero] at hm
          have : m = 0 := Rat.natCast_inj.1 hm.symm
          omega
      · rw [if_neg hh] at hsg ⊢
        have hle : 0 ≤ i := Rat.intCast_nonneg.1 hsg
        rw [if_neg (by omega), Rat.one_mul]
        exact trunc_int m

theorem intText_num {E : Env} {t : Bytes} {i : Int} (h1 : NumTok E t) (hq : TextValue t (i : Rat)) (hn : IntText t) :
    ∃ neg ds, numOf E t = intNum E neg (decVal ds) ∧ i = intVal neg ds := by
  obtain ⟨neg, ds, rfl, hd⟩ := hn
  obtain ⟨h2, h3⟩ := intTok_iff (E := E) neg ds hd
  have hi := h2.1 h1
  obtain ⟨q, h4, -, rfl⟩ := intText_value neg hd hi.2.1
  exact ⟨neg, ds, h3 hi, int_inj (textValue_unique hq h4)⟩

/-- Int64() of a literal that stands for an integer gives that integer exactly if the literal has neither fraction nor exponent, or the integer is a float64
number. -/
theorem C82_int64 (E : Env) (hE : Ieee E) (s x : Bytes) (v : V) (t : Bytes) (n : Num) (i : Int) (h : goUnmarshal E s = .ok (x, v, none)) (hg : FoundIn E v t n)
    (hs : ShortExp t) (hq : TextValue t (i : Rat)) (h1 : -2 ^ 63 ≤ i) (h2 : i < 2 ^ 63 - 512) :
    ∃ r, int64 E (.num t n) = .ok r ∧ (r.toInt = i ↔ IntText t ∨ ∃ c, double.val c = (i.natAbs : Rat)) := by
  obtain ⟨ht, rfl⟩ := found_parsed h hg
  refine ⟨_, rfl, ?_⟩
  by_cases hn : IntText t
  · refine iff_of_true ?_ (.inl hn)
    obtain ⟨neg, ds, h3, rfl⟩ := intText_num ht hq hn
    rw [h3]
    unfold intNum intVal at *
    cases neg with
    | true =>
      simp only [if_true] at *
      rw [BitVec.toInt_ofInt, Int.bmod_eq_of_le] <;> omega
    | false =>
      simp only [Bool.false_eq_true, if_false] at *
      rw [BitVec.toInt_eq_toNat_cond, BitVec.toNat_ofNat]; split <;> omega
  · obtain ⟨f, b, m, h3, h4, h5, h6, h7, h8⟩ := intLit_f64 hE ht hs hq hn
    have hm : if i < 0 then m ≤ 2 ^ 63 else m < 2 ^ 63 := by
      by_cases h0 : i < 0
      · rw [if_pos h0]
        have hle : b ≤ 0x43E0000000000000 := nearest_le h3 (by decide) (by
          have e : double.val 0x43E0000000000000 = ((2 ^ 63 : Nat) : Rat) := by decide +kernel
          rw [e]
          exact Rat.natCast_le_natCast.2 (by omega))
        have hv := double.val_le hle
        have e : double.val 0x43E0000000000000 = ((2 ^ 63 : Nat) : Rat) := by decide +kernel
        rw [h6, e] at hv
        exact Rat.natCast_le_natCast.1 hv
      · rw [if_neg h0]
        have hle : b ≤ 0x43DFFFFFFFFFFFFF := nearest_le_mid h3 (by decide) (by
          have e : ((2 ^ 63 - 512 : Nat) : Rat) * 2 = double.val 0x43DFFFFFFFFFFFFF + double.val (0x43DFFFFFFFFFFFFF + 1) := by decide +kernel
          have : (i.natAbs : Rat) < ((2 ^ 63 - 512 : Nat) : Rat) := Rat.natCast_lt_natCast.2 (by omega)
          grind)
        have hv := double.val_le hle
        have e : double.val 0x43DFFFFFFFFFFFFF = ((2 ^ 63 - 1024 : Nat) : Rat) := by decide +kernel
        rw [h6, e] at hv
        have := Rat.natCast_le_natCast.1 hv
        omega
    have hr : (E.f64ToI64 f).toInt = if i < 0 then -(m : Int) else m := by
      rw [hE.toI64 f h7 (by rw [h8]; split at hm <;> simp_all <;> omega) (by rw [h8]; split at hm <;> simp_all <;> omega), h8]
    rw [h5]
    show (E.f64ToI64 f).toInt = i ↔ _
    rw [hr, ← nearest_exact h3 h4, h6]
    simp only [hn, false_or]
    rw [Rat.natCast_inj]
    split <;> omega

/-- the same for Uint64() -/
theorem C82_uint64 (E : Env) (hE : Ieee E) (s x : Bytes) (v : V) (t : Bytes) (n : Num) (i : Int) (h : goUnmarshal E s = .ok (x, v, none)) (hg : FoundIn E v t n)
    (hs : ShortExp t) (hq : TextValue t (i : Rat)) (h1 : 0 ≤ i) (h2 : i < 2 ^ 64 - 1024) :
    ∃ r, uint64 E (.num t n) = .ok r ∧ ((r.toNat : Int) = i ↔ IntText t ∨ ∃ c, double.val c = (i.natAbs : Rat)) := by
  obtain ⟨ht, rfl⟩ := found_parsed h hg
  refine ⟨_, rfl, ?_⟩
  by_cases hn : IntText t
  · refine iff_of_true ?_ (.inl hn)
    obtain ⟨neg, ds, h3, rfl⟩ := intText_num ht hq hn
    rw [h3]
    unfold intNum intVal at *
    cases neg with
    | true =>
      simp only [if_true] at *
      rw [BitVec.toNat_ofInt]; omega
    | false =>
      simp only [Bool.false_eq_true, if_false] at *
      rw [BitVec.toNat_ofNat]; omega
  · obtain ⟨f, b, m, h3, h4, h5, h6, h7, h8⟩ := intLit_f64 hE ht hs hq hn
    rw [if_neg (by omega)] at h8
    have hm : m < 2 ^ 64 := by
      have hle : b ≤ 0x43EFFFFFFFFFFFFF := nearest_le_mid h3 (by decide) (by
        have e : ((2 ^ 64 - 1024 : Nat) : Rat) * 2 = double.val 0x43EFFFFFFFFFFFFF + double.val (0x43EFFFFFFFFFFFFF + 1) := by decide +kernel
        have : (i.natAbs : Rat) < ((2 ^ 64 - 1024 : Nat) : Rat) := Rat.natCast_lt_natCast.2 (by omega)
        grind)
      have hv := double.val_le hle
      have e : double.val 0x43EFFFFFFFFFFFFF = ((2 ^ 64 - 2048 : Nat) : Rat) := by decide +kernel
      rw [h6, e] at hv
      have := Rat.natCast_le_natCast.1 hv
      omega
    have hr : ((E.f64ToU64 f).toNat : Int) = m := by
      rw [hE.toU64 f h7 (by omega) (by omega), h8]
    rw [h5]
    show ((E.f64ToU64 f).toNat : Int) = i ↔ _
    rw [hr, ← nearest_exact h3 h4, h6]
    simp only [hn, false_or]
    rw [Rat.natCast_inj]
    omega

/-- In particular for all integers up to 2^53. -/
theorem C82_partial (E : Env) (hE : Ieee E) (s x : Bytes) (v : V) (t : Bytes) (n : Num) (i : Int) (h : goUnmarshal E s = .ok (x, v, none)) (hg : FoundIn E v t n)
    (hs : ShortExp t) (hq : TextValue t (i : Rat)) (hi : i.natAbs ≤ 2 ^ 53) :
    (∃ r, int64 E (.num t n) = .ok r ∧ r.toInt = i) ∧ (0 ≤ i → ∃ r, uint64 E (.num t n) = .ok r ∧ (r.toNat : Int) = i) := by
  have hc := nat_double hi
  constructor
  · obtain ⟨r, h1, h2⟩ := C82_int64 E hE s x v t n i h hg hs hq (by omega) (by omega)
    exact ⟨r, h1, h2.2 (.inr hc)⟩
  · intro h0
    obtain ⟨r, h1, h2⟩ := C82_uint64 E hE s x v t n i h hg hs hq h0 (by omega)
    exact ⟨r, h1, h2.2 (.inr hc)⟩

/-- a literal that is accepted -/
theorem lit_parsed {E : Env} (hE : Ieee E) {neg : Bool} {ip t : Bytes} {q : Rat} (hj : JFloat neg ip t) (hz : ZerosOK ip) (hs : ShortExp t) (hq : TextValue t q)
    (hr : q.abs < ((2 ^ 1024 - 2 ^ 970 : Nat) : Rat)) : goUnmarshal E t = .ok (t, .num t (numOf E t), none) := by
  obtain ⟨w, hw⟩ := (C81_range E hE neg ip t q hj hs hq).2 ⟨hr, hz⟩
  obtain ⟨⟨c, u, rfl, hc⟩, hch⟩ := jnum_shape (t := t) (.inr ⟨neg, ip, hj⟩)
  obtain ⟨-, rfl⟩ := unmarshal_number (by rcases hc with hc | rfl; (· simp [isNumStart, (numChar_facts c).1.2 hc]); (· rfl)) (fun x hx => hch x (by simp [hx])) (goUnmarshal_ok.1 hw).2
  exact hw

/-- `9007199254740993.0`: 2^53 + 1 -/
theorem lit_big {E : Env} (hE : Ieee E) : let t := asc "9007199254740993.0"
    ShortExp t ∧ TextValue t ((9007199254740993 : Int) : Rat) ∧ ¬ IntText t ∧ goUnmarshal E t = .ok (t, .num t (numOf E t), none) := by
  intro t
  have hs : ShortExp t := shortExp_none (by decide +kernel)
  have hj : JFloat false (asc "9007199254740993") t := ⟨asc ".0", [], .inr ⟨0x39, asc "007199254740993", by decide +kernel, by decide, by decide, digits_of (by decide +kernel)⟩,
    .inr ⟨asc "0", by decide +kernel, by decide +kernel, digits_of (by decide +kernel)⟩, .inl rfl, by decide +kernel, by decide +kernel⟩
  have hq : TextValue t ((9007199254740993 : Int) : Rat) := by
    have := TextValue.mk false (asc "9007199254740993") (asc ".0") (asc "0") [] 0 (digits_of (by decide +kernel)) (digits_of (by decide +kernel))
      (.inr (by decide +kernel)) (by decide +kernel) (.inl ⟨rfl, rfl⟩)
    have e : (if false = true then (-1 : Rat) else 1) * ((decVal (asc "9007199254740993") : Rat) + (decVal (asc "0") : Rat) / (10 : Rat) ^ (asc "0").length) * (10 : Rat) ^ (0 : Int) =
        ((9007199254740993 : Int) : Rat) := by decide +kernel
    rw [e] at this
    exact this
  refine ⟨hs, hq, ?_, lit_parsed hE hj (zerosOK_of_lt (digits_of (by decide +kernel)) (by decide +kernel) ?_) hs hq (by decide +kernel)⟩
  · rintro ⟨neg, ds, h1, h2⟩
    have hm : (0x2E : UInt8) ∈ t := by decide +kernel
    rw [h1] at hm
    rcases List.mem_append.1 hm with hm | hm
    · cases neg <;> simp [sign] at hm
    · have := h2 _ hm
      unfold Digit at this
      exact absurd this (by decide)
  · intro c u h
    have := congrArg List.head? h
    simp only [List.head?_cons] at this
    revert this
    decide +kernel

/-- `9007199254740993.0` is not read as 9007199254740993. -/
theorem C82_counterexample : ¬ C82_statement := by
  intro h
  obtain ⟨h1, h2, h3, h4⟩ := lit_big (ieeeEnv_ok sampleEnv)
  obtain ⟨r, h5, h6⟩ := (h _ (ieeeEnv_ok sampleEnv) _ _ _ _ _ _ h4 (.inl rfl) h1 h2).1 (by decide) (by decide)
  obtain ⟨r', h7, h8⟩ := C82_int64 _ (ieeeEnv_ok sampleEnv) _ _ _ _ _ _ h4 (.inl rfl) h1 h2 (by decide) (by decide)
  rw [h5] at h7
  cases h7
  rcases h8.1 h6 with h8 | ⟨c, hc⟩
  · exact h3 h8
  · have hc : double.val c = 9007199254740993 := hc
    have h9 : c < 0x4340000000000001 := by
      apply Nat.lt_of_not_le
      intro hle
      have := double.val_le hle
      rw [hc] at this
      revert this
      decide +kernel
    have h10 := double.val_le (show c ≤ 0x4340000000000000 by omega)
    rw [hc] at h10
    revert h10
    decide +kernel

/-! ### C83 -/

/-- C83 as stated: false, see the counterexample. -/
def C83_statement : Prop := ∀ (E : Env), Ieee E → ∀ (s x : Bytes) (v : V) (t : Bytes) (n : Num) (q : Rat) (c : Nat), goUnmarshal E s = .ok (x, v, none) →
  FoundIn E v t n → ShortExp t → (Digits t → decVal t < 2 ^ 64) → TextValue t q → Nearest single q.abs c → c < single.inf →
  float32 E (.num t n) = .ok (pack32 (t.head? == some 0x2D) c)

/-- Float32() rounds the number written to float64 and that to float32. It is the float32 nearest to the number written, unless that float64 is half way between two
float32 numbers and the number written is on the side where the odd one of them is. -/
theorem C83_exact (E : Env) (hE : Ieee E) (s x : Bytes) (v : V) (t : Bytes) (n : Num) (h : goUnmarshal E s = .ok (x, v, none)) (hg : FoundIn E v t n)
    (hs : ShortExp t) (hw : Digits t → decVal t < 2 ^ 64) :
    ∃ q b, TextValue t q ∧ Nearest double q.abs b ∧ float64 E (.num t n) = .ok (pack (t.head? == some 0x2D) b) ∧
      ∀ c, Nearest single (double.val b) c → c ≠ single.inf → float32 E (.num t n) = .ok (pack32 (t.head? == some 0x2D) c) ∧
        ∀ c', Nearest single q.abs c' →
          (c = c' ↔ ∀ a, a < single.inf → double.val b * 2 = single.val a + single.val (a + 1) → if a % 2 = 0 then q.abs ≤ double.val b else double.val b ≤ q.abs) := by
  obtain ⟨h1, rfl⟩ := found_parsed h hg
  obtain ⟨q, b, h2, h3, h4, h5⟩ := token_f64 hE h1 hs hw
  have h63 : b < 2 ^ 63 := by have := inf_lt63; omega
  refine ⟨q, b, h2, h3, congrArg R.ok h5, fun c hc hci => ⟨?_, fun c' hc' => round_twice h3 hc hc'⟩⟩
  show R.ok (E.f64ToF32 (numOf E t).f64) = _
  rw [h5, hE.toF32 _ c (by rw [(magnitude_pack h63).1]; exact h4) (by rw [floatValue_abs h63]; exact hc) hci, (magnitude_pack h63).2]

/-- Float32() of the number written, if it is not the one of the two special cases: for example whenever the number is a float64. -/
theorem C83_partial (E : Env) (hE : Ieee E) (s x : Bytes) (v : V) (t : Bytes) (n : Num) (q : Rat) (c : Nat) (h : goUnmarshal E s = .ok (x, v, none)) (hg : FoundIn E v t n)
    (hs : ShortExp t) (hw : Digits t → decVal t < 2 ^ 64) (hq : TextValue t q) (hc : Nearest single q.abs c) (hci : c < single.inf) (b : Nat) (hb : double.val b = q.abs) :
    float32 E (.num t n) = .ok (pack32 (t.head? == some 0x2D) c) := by
  obtain ⟨q', b', h1, h2, h3, h4⟩ := C83_exact E hE s x v t n h hg hs hw
  rw [textValue_unique h1 hq] at h2 h4
  have hbi : b ≤ double.inf := by
    rw [← val_le_iff, hb]
    have h5 := (nearest_bounds hc).1 hci
    have h6 := single.val_le (show c ≤ single.inf by omega)
    have h7 := single.val_le (show c + 1 ≤ single.inf by omega)
    have e : single.val single.inf ≤ double.val double.inf := by decide +kernel
    grind
  rw [← hb] at h2
  have := nearest_unique h2 (nearest_self hbi)
  subst this
  exact (h4 c (by rw [hb]; exact hc) (by omega)).1

/-- `7.038531e-26` -/
theorem lit_tie {E : Env} (hE : Ieee E) : let t := asc "7.038531e-26"
    ShortExp t ∧ TextValue t (7038531 / 100000000000000000000000000000000) ∧ goUnmarshal E t = .ok (t, .num t (numOf E t), none) := by
  intro t
  have hs : ShortExp t := by
    have := shortExp_of (pre := asc "7.038531") (e := 0x65) (sg := [0x2D]) (d := asc "26") (by decide +kernel) (by simp) (digits_of (by decide +kernel)) (by decide +kernel)
    have e : asc "7.038531" ++ (0x65 : UInt8) :: [0x2D] ++ asc "26" = t := by decide +kernel
    rwa [e] at this
  have hj : JFloat false (asc "7") t := ⟨asc ".038531", asc "e-26", .inr ⟨0x37, [], by decide +kernel, by decide, by decide, by simp [Digits]⟩,
    .inr ⟨asc "038531", by decide +kernel, by decide +kernel, digits_of (by decide +kernel)⟩,
    .inr ⟨0x65, [0x2D], asc "26", by decide +kernel, by simp, by simp, by decide +kernel, digits_of (by decide +kernel)⟩, by decide +kernel, by decide +kernel⟩
  have hq : TextValue t (7038531 / 100000000000000000000000000000000) := by
    have := TextValue.mk false (asc "7") (asc ".038531") (asc "038531") (asc "e-26") (-26) (digits_of (by decide +kernel)) (digits_of (by decide +kernel))
      (.inr (by decide +kernel)) (by decide +kernel) (.inr ⟨0x65, [0x2D], asc "26", by decide +kernel, by simp, digits_of (by decide +kernel), by decide +kernel, .inr ⟨rfl, by decide +kernel⟩⟩)
    have e : (if false = true then (-1 : Rat) else 1) * ((decVal (asc "7") : Rat) + (decVal (asc "038531") : Rat) / (10 : Rat) ^ (asc "038531").length) * (10 : Rat) ^ (-26 : Int) =
        7038531 / 100000000000000000000000000000000 := by decide +kernel
    rw [e] at this
    have e' : sign false ++ asc "7" ++ asc ".038531" ++ asc "e-26" = t := by decide +kernel
    rwa [e'] at this
  refine ⟨hs, hq, lit_parsed hE hj (zerosOK_of_lt (digits_of (by decide +kernel)) (by decide +kernel) ?_) hs hq (by decide +kernel)⟩
  intro c u h
  exact absurd (congrArg List.length h) (by rw [show (asc "7").length = 1 from by decide +kernel]; simp)

theorem tie_double : Nearest double (7038531 / 100000000000000000000000000000000) 0x3ab5c87fb0000000 := by
  rw [nearest_iff]
  refine ⟨by decide, fun _ => .inl (by decide +kernel), fun c hc => .inl ?_⟩
  obtain rfl : c = 0x3ab5c87fafffffff := by omega
  decide +kernel

theorem tie_single : Nearest single (7038531 / 100000000000000000000000000000000) 0x15ae43fd := by
  rw [nearest_iff]
  refine ⟨by decide, fun _ => .inl (by decide +kernel), fun c hc => .inl ?_⟩
  obtain rfl : c = 0x15ae43fc := by omega
  decide +kernel

theorem tie_twice : Nearest single (double.val 0x3ab5c87fb0000000) 0x15ae43fe := by
  rw [nearest_iff]
  refine ⟨by decide, fun _ => .inl (by decide +kernel), fun c hc => .inr ?_⟩
  obtain rfl : c = 0x15ae43fd := by omega
  exact ⟨by decide +kernel, by decide⟩

/-- Float32() of `7.038531e-26` has the bits 15ae43fe; the nearest float32 is the one before. -/
theorem C83_wrong (E : Env) (hE : Ieee E) : ∃ v, goUnmarshal E (asc "7.038531e-26") = .ok (asc "7.038531e-26", v, none) ∧ float32 E v = .ok 0x15ae43fe#32 ∧
    Nearest single (7038531 / 100000000000000000000000000000000) 0x15ae43fd := by
  obtain ⟨h1, h2, h3⟩ := lit_tie hE
  refine ⟨_, h3, ?_, tie_single⟩
  obtain ⟨q, b, h4, h5, h6, h7⟩ := C83_exact E hE _ _ _ _ _ h3 (.inl rfl) h1 (fun h => absurd (h 0x2E (by decide +kernel)) (by unfold Digit; decide))
  have e : (7038531 / 100000000000000000000000000000000 : Rat).abs = 7038531 / 100000000000000000000000000000000 := by decide +kernel
  rw [textValue_unique h4 h2, e] at h5
  have := nearest_unique h5 tie_double
  subst this
  have := (h7 _ tie_twice (by decide)).1
  rw [this]
  decide +kernel

theorem C83_counterexample : ¬ C83_statement := by
  intro h
  obtain ⟨h1, h2, h3⟩ := lit_tie (ieeeEnv_ok sampleEnv)
  obtain ⟨v, h4, h5, h6⟩ := C83_wrong _ (ieeeEnv_ok sampleEnv)
  rw [h3] at h4
  cases h4
  have e : (7038531 / 100000000000000000000000000000000 : Rat).abs = 7038531 / 100000000000000000000000000000000 := by decide +kernel
  have := h _ (ieeeEnv_ok sampleEnv) _ _ _ _ _ _ 0x15ae43fd h3 (.inl rfl) h1 (fun h => absurd (h 0x2E (by decide +kernel)) (by unfold Digit; decide)) h2 (by rw [e]; exact h6) (by decide)
  rw [h5] at this
  revert this
  decide +kernel

/-! ### C61 -/

/-- For which floats C61 holds: NewFloat64(f), Marshal, Unmarshal and Float64() give `f` back exactly if its absolute value is below 2^64 (below 2^63 if it is
negative) or at least 1e21. In particular NewFloat64(-9223372036854775808), the smallest int64, is lost. -/
theorem C61_bits (E : Env) (hE : Ieee E) (S : SortFn) (O : DigitFn) (hO : GoDigits O) (d : Opt) (opts : List MOpt) (f : BitVec 64) (hf : finite f = true) :
    (∃ t w, marshal E S d (newFloat E (newFloatText O) false f) opts = .ok (t, none) ∧ goUnmarshal E t = .ok (t, w, none) ∧ float64 E w = .ok f) ↔
      (floatValue f).abs < (if f.msb = true then (2 : Rat) ^ (63 : Nat) else (2 : Rat) ^ (64 : Nat)) ∨ (10 : Rat) ^ (21 : Nat) ≤ (floatValue f).abs := by
  have hm := (finite_iff f).1 hf
  have hs := shortest_double hO hm
  have hF := hO.double f hm
  rw [C61_exact E S O d opts f hf hs (ieee_intConv hE) (ieee_farApart hE) (parse_floatText hE hO hm), text_range hs]
  obtain ⟨r1, r2⟩ := double_range hF hm
  have hval : (floatValue f).abs = double.val (magnitude f) := abs_sign _ (double.val_nonneg _)
  have key : ∀ {c : Nat} {lim : Rat}, double.val c = lim → (double.val (magnitude f) < lim ↔ magnitude f < c) := by
    rintro c lim rfl
    rw [← Rat.not_le, val_le_iff, Nat.not_le]
  have k63 := key (show double.val 0x43E0000000000000 = (2 : Rat) ^ (63 : Nat) by decide +kernel)
  have k64 := key (show double.val 0x43F0000000000000 = (2 : Rat) ^ (64 : Nat) by decide +kernel)
  have k21 := key (show double.val 0x444B1AE4D6E2EF50 = (10 : Rat) ^ (21 : Nat) by decide +kernel)
  have hsmall : magnitude f < 0x3EB0C6F7A0B5ED8D → magnitude f < 0x43E0000000000000 := by omega
  have k21' : (10 : Rat) ^ (21 : Nat) ≤ double.val (magnitude f) ↔ 0x444B1AE4D6E2EF50 ≤ magnitude f := by rw [← Rat.not_lt, k21, Nat.not_lt]
  rw [hval, k21']
  simp only [usesE, fabs_magnitude, Bool.or_eq_true, decide_eq_true_eq, ge_iff_le]
  cases f.msb with
  | true =>
    rw [if_pos rfl, if_pos rfl, r1, k63]
    omega
  | false =>
    rw [if_neg (by decide), if_neg (by decide), r2, k64]
    omega

-- the smallest int64
example (E : Env) (hE : Ieee E) (S : SortFn) (O : DigitFn) (hO : GoDigits O) (d : Opt) (opts : List MOpt) : ¬ ∃ t w,
    marshal E S d (newFloat E (newFloatText O) false 0xC3E0000000000000#64) opts = .ok (t, none) ∧ goUnmarshal E t = .ok (t, w, none) ∧ float64 E w = .ok 0xC3E0000000000000#64 := by
  rw [C61_bits E hE S O hO d opts _ (by decide)]
  decide +kernel

-- -1.5, the smallest float64 above zero and the largest one
example (E : Env) (hE : Ieee E) (S : SortFn) (O : DigitFn) (hO : GoDigits O) (d : Opt) (opts : List MOpt) (f : BitVec 64)
    (hf : f = 0xBFF8000000000000#64 ∨ f = 1#64 ∨ f = 0x7FEFFFFFFFFFFFFF#64) : ∃ t w,
    marshal E S d (newFloat E (newFloatText O) false f) opts = .ok (t, none) ∧ goUnmarshal E t = .ok (t, w, none) ∧ float64 E w = .ok f := by
  rw [C61_bits E hE S O hO d opts _ (by rcases hf with rfl | rfl | rfl <;> decide)]
  rcases hf with rfl | rfl | rfl <;> decide +kernel

/-! ### C84 -/

/-- `f` is `float64(g)` for a finite float32 `g` -/
structure Widened (g : BitVec 32) (f : BitVec 64) : Prop where
  fin : g.toNat % 2 ^ 31 < single.inf
  fin64 : magnitude f < double.inf
  same : double.val (magnitude f) = single.val (g.toNat % 2 ^ 31)
  sign : f.msb = g.msb

/-- C84 as stated: false, see the counterexamples. -/
def C84_statement : Prop := ∀ (E : Env), Ieee E → ∀ (S : SortFn) (O : DigitFn), GoDigits O → ∀ (d : Opt) (opts : List MOpt) (g : BitVec 32) (f : BitVec 64), Widened g f →
  ∃ t w, marshal E S d (newFloat E (newFloatText O) true f) opts = .ok (t, none) ∧ goUnmarshal E t = .ok (t, w, none) ∧ float32 E w = .ok g

theorem float32_of {E : Env} (hE : Ieee E) {n : Num} {neg : Bool} {b c : Nat} (hb : b < double.inf) (hn : n.f64 = pack neg b) (hc : Nearest single (double.val b) c)
    (hci : c ≠ single.inf) (t : Bytes) : float32 E (.num t n) = .ok (pack32 neg c) := by
  have h63 : b < 2 ^ 63 := by have := inf_lt63; omega
  show R.ok (E.f64ToF32 n.f64) = _
  rw [hn, hE.toF32 _ c (by rw [(magnitude_pack h63).1]; exact hb) (by rw [floatValue_abs h63]; exact hc) hci, (magnitude_pack h63).2]

/-- For which float32 numbers C84 holds: those up to 2^64 (2^63 if negative) or from 1e21 on whose digits, rounded to float64, are not half way to the next float32
(or are, and so is the number these digits stand for, or the other float32 is odd). -/
theorem C84_exact (E : Env) (hE : Ieee E) (S : SortFn) (O : DigitFn) (hO : GoDigits O) (d : Opt) (opts : List MOpt) (g : BitVec 32) (f : BitVec 64) (hg : Widened g f) :
    (∃ t w, marshal E S d (newFloat E (newFloatText O) true f) opts = .ok (t, none) ∧ goUnmarshal E t = .ok (t, w, none) ∧ float32 E w = .ok g) ↔
      ((floatValue f).abs ≤ (if f.msb = true then (2 : Rat) ^ (63 : Nat) else (2 : Rat) ^ (64 : Nat)) ∨ (10 : Rat) ^ (21 : Nat) ≤ (floatValue f).abs) ∧
      ∀ q b a, q = digitsValue false (shortest O true f) → Nearest double q b → a < single.inf → double.val b * 2 = single.val a + single.val (a + 1) →
        if a % 2 = 0 then q ≤ double.val b else double.val b ≤ q := by
  have hm := hg.fin64
  have hs := shortest_single hO hm hg.fin hg.same
  have hF := hO.single f _ hm hg.fin hg.same
  have hfin := (finite_iff f).2 hm
  obtain ⟨r1, r2⟩ := single_range hF hg.fin
  have hval : (floatValue f).abs = double.val (magnitude f) := abs_sign _ (double.val_nonneg _)
  have hrange : (∀ neg ip, JInt neg ip (newFloatText O true f) → -2 ^ 63 ≤ intVal neg ip ∧ intVal neg ip < 2 ^ 64) ↔
      ((floatValue f).abs ≤ (if f.msb = true then (2 : Rat) ^ (63 : Nat) else (2 : Rat) ^ (64 : Nat)) ∨ (10 : Rat) ^ (21 : Nat) ≤ (floatValue f).abs) := by
    rw [text_range hs]
    have k21 : (10 : Rat) ^ (21 : Nat) ≤ double.val (magnitude f) ↔ 0x444B1AE4D6E2EF50 ≤ magnitude f := by
      rw [show (10 : Rat) ^ (21 : Nat) = double.val 0x444B1AE4D6E2EF50 by decide +kernel, val_le_iff]
    have k63 : double.val (magnitude f) ≤ (2 : Rat) ^ (63 : Nat) ↔ g.toNat % 2 ^ 31 ≤ 0x5F000000 := by
      rw [hg.same, show (2 : Rat) ^ (63 : Nat) = single.val 0x5F000000 by decide +kernel, val_le_iff]
    have k64 : double.val (magnitude f) ≤ (2 : Rat) ^ (64 : Nat) ↔ g.toNat % 2 ^ 31 ≤ 0x5F800000 := by
      rw [hg.same, show (2 : Rat) ^ (64 : Nat) = single.val 0x5F800000 by decide +kernel, val_le_iff]
    have hsmall : magnitude f < 0x3EB0C6F7A0B5ED8D → double.val (magnitude f) ≤ (2 : Rat) ^ (63 : Nat) := by
      intro h
      have h1 := double.val_le (Nat.le_of_lt h)
      have e : double.val 0x3EB0C6F7A0B5ED8D ≤ (2 : Rat) ^ (63 : Nat) := by decide +kernel
      grind
    have h64 : double.val (magnitude f) ≤ (2 : Rat) ^ (63 : Nat) → double.val (magnitude f) ≤ (2 : Rat) ^ (64 : Nat) := by
      intro h
      have e : (2 : Rat) ^ (63 : Nat) ≤ (2 : Rat) ^ (64 : Nat) := by decide +kernel
      grind
    rw [hval, k21]
    simp only [usesE, fabs_magnitude, Bool.or_eq_true, decide_eq_true_eq, ge_iff_le]
    cases f.msb with
    | true => rw [if_pos rfl, if_pos rfl, r1, ← k63]; grind
    | false => rw [if_neg (by decide), if_neg (by decide), r2, ← k64]; grind
  obtain ⟨b, hb, hparse⟩ := parse_floatText32 hE hs
  have hbi : b ≠ double.inf := by
    intro h0
    have h1 := (fewest_between hF hg.fin).1
    have h2 := single.val_le (show g.toNat % 2 ^ 31 ≤ single.inf by have := hg.fin; omega)
    have h3 := single.val_le (show g.toNat % 2 ^ 31 + 1 ≤ single.inf by have := hg.fin; omega)
    have h4 : b ≤ double.inf - 1 := nearest_le hb (by omega) (by
      have e : single.val single.inf ≤ double.val (double.inf - 1) := by decide +kernel
      grind)
    have : double.inf ≠ 0 := by decide
    omega
  rw [if_neg hbi] at hparse
  have hbl : b < double.inf := by have := hb.le; omega
  obtain ⟨c, hc⟩ := nearest_exists single (double.val_nonneg b)
  have hci := single_notInf hF hg.fin hb hc
  have hcl : c < 2 ^ 31 := Nat.lt_of_le_of_lt hc.le (by decide)
  have htie := round_twice hb hc hF.reads
  have hgp := pack32_self g
  rw [← hrange]
  have hlast : c = g.toNat % 2 ^ 31 ↔ ∀ q b a, q = digitsValue false (shortest O true f) → Nearest double q b → a < single.inf →
      double.val b * 2 = single.val a + single.val (a + 1) → if a % 2 = 0 then q ≤ double.val b else double.val b ≤ q := by
    rw [htie]
    constructor
    · rintro h q b' a rfl hb'
      obtain rfl := nearest_unique hb hb'
      exact h a
    · intro h a
      exact h _ b a rfl hb
  rw [← hlast]
  constructor
  · rintro ⟨t, w, h1, h2, h3⟩
    rw [floatText_marshal hs hfin] at h1
    cases h1
    have hr : ∀ neg ip, JInt neg ip (newFloatText O true f) → -2 ^ 63 ≤ intVal neg ip ∧ intVal neg ip < 2 ^ 64 := by
      intro neg ip hi
      obtain ⟨hd, hne, -⟩ := intPart_digits hi.1
      have h2' := h2
      rw [hi.2] at h2'
      rcases C06_integers_partial E neg ip w hd hne h2' with ⟨hr, -⟩ | ⟨rfl, -, h4, h5⟩
      · exact hr
      · -- the number wraps: what is read is at most 2^64, the float32 is more
        exfalso
        obtain ⟨-, rfl⟩ := unmarshal_intText hd hne (goUnmarshal_ok.1 h2').2
        obtain ⟨b', hb', hu⟩ := hE.u64 (BitVec.ofNat 64 (decVal ip))
        have hle := nat_notInf hb' (BitVec.isLt _)
        obtain ⟨c', hc'⟩ := nearest_exists single (double.val_nonneg b')
        have hcle : c' ≤ 0x5F800000 := nearest_le hc' (by decide) (by
          have h6 := double.val_le hle
          have e : double.val 0x43F0000000000000 = single.val 0x5F800000 := by decide +kernel
          grind)
        have h7 := float32_of hE (n := intNum E false (decVal ip)) (neg := false) (b := b') (by have : 0x43F0000000000000 < double.inf := by decide
                                                                                                omega) hu hc' (by have : 0x5F800000 < single.inf := by decide
                                                                                                                  omega) (sign false ++ ip)
        rw [h3] at h7
        have hneg : f.msb = false := by
          obtain ⟨h8, -⟩ := jint_facts hi
          rw [← h8, floatText_head hs]
        have hcg : g.toNat % 2 ^ 31 = c' := by
          refine pack32_inj (neg := false) (Nat.mod_lt _ (by decide)) (by omega) ?_
          rw [← R.ok.inj h7, ← hg.sign.symm.trans hneg]
          exact hgp
        have h9 := (jint_facts hi).2.2
        obtain ⟨q, h10, h11⟩ := h9
        rw [textValue_unique h10 (C60_value O true f hs).2, digitsValue_abs] at h11
        have h12 := r2.2 (by omega)
        rw [h11] at h12
        have e : (18446744073709551616 : Rat) = ((2 ^ 64 : Nat) : Rat) := by decide +kernel
        rw [e, Rat.natCast_lt_natCast] at h12
        omega
    refine ⟨hr, ?_⟩
    obtain ⟨h4, h5⟩ := floatText_num hs (ieee_intConv hE) hparse hr
    have h6 := (goUnmarshal_ok.1 h2).2
    rw [unmarshal_numTok h4] at h6
    cases h6
    have h7 := float32_of hE hbl h5 hc hci (newFloatText O true f)
    rw [h3] at h7
    have h8 := R.ok.inj h7
    rw [hg.sign] at h8
    exact (pack32_inj (Nat.mod_lt _ (by decide)) hcl (hgp.trans h8)).symm
  · rintro ⟨hr, rfl⟩
    obtain ⟨h4, h5⟩ := floatText_num hs (ieee_intConv hE) hparse hr
    refine ⟨_, _, floatText_marshal hs hfin E S d opts, goUnmarshal_ok.2 ⟨rfl, unmarshal_numTok h4⟩, ?_⟩
    rw [float32_of hE hbl h5 hc hci, hg.sign, hgp]

/-- the shortest digits of an integer are those of an integer -/
theorem fewest_int {b n : Nat} {g : FDigits} (h : Fewest single b g) (hi : b < single.inf) (hn : single.val b = (n : Rat)) : ∃ m : Nat, digitsValue false g = (m : Rat) := by
  by_cases h0 : b = 0
  · obtain rfl := h.zero h0
    exact ⟨0, by decide +kernel⟩
  have hne : g.d ≠ [] := fun h1 => h0 ((fewest_ne h).1 h1)
  have hn0 : n ≠ 0 := by
    rintro rfl
    exact h0 (val_inj (hn.trans (by decide +kernel)))
  by_cases hdp : (g.d.length : Int) ≤ g.dp
  · refine ⟨decVal g.d * 10 ^ (g.dp - g.d.length).toNat, ?_⟩
    rw [digitsValue_false, Rat.natCast_mul, ← ten_nat]
    congr 2
    omega
  exfalso
  obtain ⟨d1, d2, d3, d4⟩ := natDigits_spec n
  have hlen := h.fewest ⟨natDigits n, (natDigits n).length⟩ d1 (by
    rw [digitsValue_false]
    simp only [Int.sub_self, d3]
    rw [show (10 : Rat) ^ (0 : Int) = 1 from rfl, Rat.mul_one, ← hn]
    exact nearest_self (by omega))
  have hlen : g.d.length ≤ (natDigits n).length := hlen
  obtain ⟨v1, v2⟩ := digitsValue_bounds h.digits h.lead hne
  have hbig : 10 ^ ((natDigits n).length - 1) ≤ n := by
    have := decVal_lead d1 (natDigits_lead (Nat.pos_of_ne_zero hn0)) d2
    rwa [d3] at this
  have hL : 0 < (natDigits n).length := List.length_pos_iff.2 d2
  have v3 : digitsValue false g ≤ ((10 ^ ((natDigits n).length - 1) : Nat) : Rat) := by
    rw [← ten_nat]
    have := ten_mono (show g.dp ≤ (((natDigits n).length - 1 : Nat) : Int) by omega)
    grind
  have hq : Nearest single ((10 ^ ((natDigits n).length - 1) : Nat) : Rat) b := by
    obtain ⟨c, hc⟩ := nearest_exists single (q := ((10 ^ ((natDigits n).length - 1) : Nat) : Rat)) Rat.natCast_nonneg
    have h1 := nearest_mono h.reads hc v3
    have h2 := nearest_le hc (by omega) (show _ ≤ single.val b by rw [hn]; exact Rat.natCast_le_natCast.2 hbig)
    obtain rfl : b = c := by omega
    exact hc
  have h1 := h.fewest ⟨[0x31], (natDigits n).length⟩ (by simp [Digits, Digit]) (by
    rw [digitsValue_false, show decVal [0x31] = 1 from rfl, show ((1 : Nat) : Rat) = 1 from rfl, Rat.one_mul,
      show (((natDigits n).length : Int) - ([0x31] : Bytes).length) = (((natDigits n).length - 1 : Nat) : Int) by simp; omega, ten_nat]
    exact hq)
  have h1 : g.d.length ≤ 1 := h1
  have h2 : g.dp ≤ 0 := by omega
  have h3 : decVal g.d < 10 := by
    have := decVal_le _ h.digits
    have : 10 ^ g.d.length ≤ 10 ^ 1 := Nat.pow_le_pow_right (by omega) h1
    omega
  have hl1 : g.d.length = 1 := by have := List.length_pos_iff.2 hne; omega
  have h4 : digitsValue false g ≤ 9 * (10 : Rat) ^ (-1 : Int) := by
    rw [digitsValue_false, hl1]
    have h5 := ten_mono (show g.dp - ((1 : Nat) : Int) ≤ -1 by omega)
    have h6 : ((decVal g.d : Nat) : Rat) ≤ ((9 : Nat) : Rat) := Rat.natCast_le_natCast.2 (by omega)
    have h7 := Rat.mul_le_mul_of_nonneg_left h5 (show (0 : Rat) ≤ (decVal g.d : Rat) from Rat.natCast_nonneg)
    have h8 := Rat.mul_le_mul_of_nonneg_right h6 (show (0 : Rat) ≤ (10 : Rat) ^ (-1 : Int) by decide +kernel)
    have e : ((9 : Nat) : Rat) = 9 := rfl
    rw [e] at h8
    exact Rat.le_trans h7 h8
  have h5 : 0x3F800000 ≤ b := by
    rw [← val_le_iff (F := single), hn, show single.val 0x3F800000 = ((1 : Nat) : Rat) by decide +kernel]
    exact Rat.natCast_le_natCast.2 (by omega)
  have h6 := (fewest_between h hi).2 (by omega)
  have h7 := single.val_le (show 0x3F7FFFFF ≤ b - 1 by omega)
  have h8 := single.val_le h5
  have e : 9 * (10 : Rat) ^ (-1 : Int) * 2 < single.val 0x3F7FFFFF + single.val 0x3F800000 := by decide +kernel
  grind

/-- C84 for integers below 2^53 -/
theorem C84_partial (E : Env) (hE : Ieee E) (S : SortFn) (O : DigitFn) (hO : GoDigits O) (d : Opt) (opts : List MOpt) (g : BitVec 32) (f : BitVec 64) (hg : Widened g f)
    (i : Int) (hi : floatValue f = i) (hs : i.natAbs < 2 ^ 53) :
    ∃ t w, marshal E S d (newFloat E (newFloatText O) true f) opts = .ok (t, none) ∧ goUnmarshal E t = .ok (t, w, none) ∧ float32 E w = .ok g := by
  rw [C84_exact E hE S O hO d opts g f hg]
  have hF := hO.single f _ hg.fin64 hg.fin hg.same
  have hv : (floatValue f).abs = (i.natAbs : Rat) := by rw [hi, int_abs]
  have hval : (floatValue f).abs = double.val (magnitude f) := abs_sign _ (double.val_nonneg _)
  have hle : ((i.natAbs : Nat) : Rat) ≤ ((2 ^ 53 : Nat) : Rat) := Rat.natCast_le_natCast.2 (by omega)
  refine ⟨.inl ?_, ?_⟩
  · rw [hv]
    have e1 : ((2 ^ 53 : Nat) : Rat) ≤ (2 : Rat) ^ (63 : Nat) := by decide +kernel
    have e2 : ((2 ^ 53 : Nat) : Rat) ≤ (2 : Rat) ^ (64 : Nat) := by decide +kernel
    split <;> grind
  · rintro q b a rfl hb ha -
    have hn : single.val (g.toNat % 2 ^ 31) = ((i.natAbs : Nat) : Rat) := by rw [← hg.same, ← hval, hv]
    obtain ⟨m, hm⟩ := fewest_int hF hg.fin hn
    have hlt : g.toNat % 2 ^ 31 < 0x5A000000 := by
      apply Nat.lt_of_not_le
      intro h
      have h1 := single.val_le h
      rw [hn, show single.val 0x5A000000 = ((2 ^ 53 : Nat) : Rat) by decide +kernel, Rat.natCast_le_natCast] at h1
      omega
    have h1 := (fewest_between hF hg.fin).1
    have h2 := single.val_le (show g.toNat % 2 ^ 31 + 1 ≤ 0x5A000000 by omega)
    have h3 := single.val_le (show g.toNat % 2 ^ 31 ≤ 0x5A000000 by omega)
    have hm2 : m ≤ 2 ^ 53 := by
      rw [← Rat.natCast_le_natCast, ← hm]
      have e : single.val 0x5A000000 = ((2 ^ 53 : Nat) : Rat) := by decide +kernel
      grind
    obtain ⟨c, hc⟩ := nat_double hm2
    have hbi : b < double.inf := by
      have h4 := nearest_le hb (c := 0x43F0000000000000) (by decide) (by
        rw [hm, show double.val 0x43F0000000000000 = ((2 ^ 64 : Nat) : Rat) by decide +kernel]
        exact Rat.natCast_le_natCast.2 (by omega))
      have : 0x43F0000000000000 < double.inf := by decide
      omega
    have := (nearest_exact hb hbi).2 ⟨c, hc.trans hm.symm⟩
    rw [this]
    split <;> exact Rat.le_refl

-- 16777215, the largest odd integer that is a float32
example (E : Env) (hE : Ieee E) (S : SortFn) (O : DigitFn) (hO : GoDigits O) (d : Opt) (opts : List MOpt) : ∃ t w,
    marshal E S d (newFloat E (newFloatText O) true 0x416FFFFFE0000000#64) opts = .ok (t, none) ∧ goUnmarshal E t = .ok (t, w, none) ∧ float32 E w = .ok 0x4B7FFFFF#32 :=
  C84_partial E hE S O hO d opts _ _ ⟨by decide, by decide, by decide +kernel, by decide⟩ 16777215 (by decide +kernel) (by decide)

/-- the digits of the float32 with the bits 15ae43fd -/
theorem single_tie {g : FDigits} (h : Fewest single 0x15ae43fd g) : digitsValue false g = 7038531 / 100000000000000000000000000000000 := by
  have hdp : g.dp = -25 := fewest_dp h (by decide) (by decide) (by decide +kernel) (by decide +kernel)
  have ev : digitsValue false ⟨asc "7038531", -25⟩ = 7038531 / 100000000000000000000000000000000 := by decide +kernel
  obtain ⟨M, h1, -⟩ := fewest_cand h (d' := asc "7038531") (digits_of (by decide +kernel)) (by rw [ev]; exact tie_single) hdp
  obtain ⟨h2, h3⟩ := fewest_between h (by decide)
  have h3 := h3 (by decide)
  have e1 : (10 : Rat) ^ ((-25 : Int) - (asc "7038531").length) = 1 / 100000000000000000000000000000000 := by decide +kernel
  have e2 : single.val 0x15ae43fd + single.val (0x15ae43fd + 1) < ((7038532 : Nat) : Rat) * (2 / 100000000000000000000000000000000) := by decide +kernel
  have e3 : ((7038530 : Nat) : Rat) * (2 / 100000000000000000000000000000000) < single.val (0x15ae43fd - 1) + single.val 0x15ae43fd := by decide +kernel
  rw [e1] at h1
  have h4 : M < 7038532 := Rat.natCast_lt_natCast.1 (by grind)
  have h5 : 7038530 < M := Rat.natCast_lt_natCast.1 (by grind)
  obtain rfl : M = 7038531 := by omega
  rw [h1]
  decide +kernel

/-- A float32 that comes back as another one: the digits `7.038531e-26` are rounded twice. -/
theorem C84_wrong (E : Env) (hE : Ieee E) (S : SortFn) (O : DigitFn) (hO : GoDigits O) (d : Opt) (opts : List MOpt) :
    Widened 0x15ae43fd#32 0x3ab5c87fa0000000#64 ∧
    ∃ t w, marshal E S d (newFloat E (newFloatText O) true 0x3ab5c87fa0000000#64) opts = .ok (t, none) ∧ goUnmarshal E t = .ok (t, w, none) ∧ float32 E w = .ok 0x15ae43fe#32 := by
  have hg : Widened 0x15ae43fd#32 0x3ab5c87fa0000000#64 := ⟨by decide, by decide, by decide +kernel, by decide⟩
  refine ⟨hg, ?_⟩
  have hs := shortest_single hO hg.fin64 hg.fin hg.same
  have hF := hO.single _ _ hg.fin64 hg.fin hg.same
  have hv := single_tie hF
  obtain ⟨b, hb, hp⟩ := parse_floatText32 hE hs
  rw [hv] at hb
  obtain rfl := nearest_unique hb tie_double
  rw [if_neg (by decide)] at hp
  have hr : ∀ neg ip, JInt neg ip (newFloatText O true 0x3ab5c87fa0000000#64) → -2 ^ 63 ≤ intVal neg ip ∧ intVal neg ip < 2 ^ 64 :=
    (text_range hs).2 (.inl (by decide))
  obtain ⟨h4, h5⟩ := floatText_num hs (ieee_intConv hE) hp hr
  refine ⟨_, _, floatText_marshal hs (by decide) E S d opts, goUnmarshal_ok.2 ⟨rfl, unmarshal_numTok h4⟩, ?_⟩
  rw [float32_of hE (by decide) h5 tie_twice (by decide)]
  decide +kernel

theorem C84_counterexample : ¬ C84_statement := by
  intro h
  obtain ⟨h1, t, w, h2, h3, h4⟩ := C84_wrong _ (ieeeEnv_ok sampleEnv) (fun n _ => List.range n) _ goDigitsFn_ok {} []
  obtain ⟨t', w', h5, h6, h7⟩ := h _ (ieeeEnv_ok sampleEnv) (fun n _ => List.range n) _ goDigitsFn_ok {} [] _ _ h1
  rw [h2] at h5
  cases h5
  rw [h3] at h6
  cases h6
  rw [h4] at h7
  exact absurd h7 (by decide)

/-! ### C44 for floats -/

theorem fltNeg_iff {f : BitVec 64} (hf : magnitude f < double.inf) : fltNeg f = decide (floatValue f < 0) := by
  have hnan : isNaN f = false := by
    have h := (finite_iff f).2 hf
    unfold finite at h
    unfold isNaN
    rw [Bool.and_eq_false_iff]
    left
    simpa using h
  have h0 := double.val_nonneg (magnitude f)
  have hz : double.val (magnitude f) = 0 ↔ magnitude f = 0 := by
    rw [← double.val_zero]
    exact ⟨val_inj, fun h => by rw [h]⟩
  rw [Bool.eq_iff_iff]
  simp only [fltNeg, hnan, Bool.not_false, Bool.and_true, Bool.and_eq_true, bne_iff_ne, ne_eq, decide_eq_true_eq]
  have hv : f.msb = true → (f = 0x8000000000000000#64 ↔ magnitude f = 0) := by
    intro hm
    rw [BitVec.msb_eq_decide, decide_eq_true_eq] at hm
    have := f.isLt
    constructor
    · rintro rfl; decide
    · intro h
      unfold magnitude at h
      apply BitVec.eq_of_toNat_eq
      rw [show (0x8000000000000000#64).toNat = 2 ^ 63 from rfl]
      omega
  constructor
  · rintro ⟨hm, hne⟩
    rw [hv hm, ← hz] at hne
    unfold floatValue
    rw [if_pos hm]
    grind
  · intro h
    unfold floatValue at h
    cases hm : f.msb with
    | false => rw [hm, if_neg (by decide)] at h; grind
    | true =>
      rw [hm, if_pos rfl] at h
      refine ⟨rfl, ?_⟩
      rw [hv hm, ← hz]
      grind

theorem greater_iff {E : Env} (hE : Ieee E) {f : BitVec 64} (hf : magnitude f < double.inf) (h64 : floatValue f < 18446744073709551616) {n : Num} (h1 : n.negative = fltNeg f)
    (h2 : n.u64 = E.f64ToU64 f) (t : Bytes) : greaterThanInt64Max (.num t n) = .ok (decide ((9223372036854775808 : Rat) ≤ floatValue f)) := by
  simp only [greaterThanInt64Max, onV, h1, h2, fltNeg_iff hf]
  congr 1
  by_cases hn : floatValue f < 0
  · rw [if_pos (by simpa using hn)]
    symm
    rw [decide_eq_false_iff_not]
    grind
  rw [if_neg (by simpa using hn)]
  have hn := Rat.not_lt.1 hn
  have ht : trunc (floatValue f) = (floatValue f).floor := if_pos hn
  have hu := hE.toU64 f hf (by rw [ht]; exact Rat.le_floor_iff.2 hn) (by
    rw [ht]
    have := Rat.floor_lt_iff.2 (show floatValue f < ((18446744073709551616 : Int) : Rat) from h64)
    omega)
  rw [Bool.eq_iff_iff, decide_eq_true_eq, decide_eq_true_eq]
  show (0x7fffffffffffffff#64).toNat < (E.f64ToU64 f).toNat ↔ _
  rw [show (0x7fffffffffffffff#64).toNat = 2 ^ 63 - 1 from rfl]
  have : (9223372036854775808 : Rat) ≤ floatValue f ↔ (9223372036854775808 : Int) ≤ (floatValue f).floor := (Rat.le_floor_iff (x := 9223372036854775808)).symm
  rw [this, ← ht, ← hu]
  omega

/-- NewFloat64 and NewFloat32: IsNegative and IsPositive are true to the number (0 and -0 are positive), and so is GreaterThanInt64Max below 2^64 (from there on the
conversion to uint64 is not specified by Go). -/
theorem C44_newFloat_sign (E : Env) (hE : Ieee E) (T : FloatText) (w : Bool) (f : BitVec 64) (hf : finite f = true) :
    isNegative (newFloat E T w f) = .ok (decide (floatValue f < 0)) ∧ isPositive (newFloat E T w f) = .ok (decide (0 ≤ floatValue f)) ∧
    (floatValue f < 18446744073709551616 → greaterThanInt64Max (newFloat E T w f) = .ok (decide ((9223372036854775807 : Rat) < floatValue f))) := by
  have hm := (finite_iff f).1 hf
  have hs : newFloat E T w f = .num (if isValidFloat f then T w f else []) { negative := fltNeg f, floated := false, f64 := f, i64 := E.f64ToI64 f, u64 := E.f64ToU64 f } := rfl
  rw [hs]
  refine ⟨congrArg R.ok (fltNeg_iff hm), ?_, fun h64 => ?_⟩
  · simp only [isPositive, onV, fltNeg_iff hm]
    congr 1
    rw [← decide_not, decide_eq_decide]
    exact Rat.not_lt
  · rw [greater_iff hE hm h64 rfl rfl]
    congr 1
    rw [decide_eq_decide]
    constructor
    · intro h; grind
    · intro h
      unfold floatValue at h ⊢
      have h0 := double.val_nonneg (magnitude f)
      cases hg : f.msb with
      | true => rw [hg, if_pos rfl] at h; grind
      | false =>
        rw [hg, if_neg (by decide), Rat.one_mul] at h
        rw [if_neg (by decide), Rat.one_mul, ← show double.val 0x43E0000000000000 = 9223372036854775808 by decide +kernel, val_le_iff]
        apply Nat.le_of_not_lt
        intro hlt
        have := double.val_le (show magnitude f ≤ 0x43DFFFFFFFFFFFFF by omega)
        have e : double.val 0x43DFFFFFFFFFFFFF ≤ 9223372036854775807 := by decide +kernel
        grind

/-- which numbers are rounded to an even one or more -/
theorem nearest_even {F : Fmt} {q : Rat} {a b : Nat} (h : Nearest F q b) (ha : a < F.inf) (hodd : a % 2 = 1) : a < b ↔ F.val a + F.val (a + 1) ≤ q * 2 := by
  constructor
  · intro hlt
    apply Rat.not_lt.1
    intro h1
    have := nearest_le_mid h (Nat.le_of_lt ha) h1
    omega
  · intro h1
    rcases Rat.le_iff_lt_or_eq.1 h1 with h2 | h2
    · exact nearest_gt_mid h ha h2
    · have h3 := nearest_mid ha h2.symm
      rw [if_neg (by omega)] at h3
      rw [nearest_unique h h3]
      omega

/-- which numbers are rounded to more than an even one -/
theorem nearest_even' {F : Fmt} {q : Rat} {a b : Nat} (h : Nearest F q b) (ha : a < F.inf) (hev : a % 2 = 0) : a < b ↔ F.val a + F.val (a + 1) < q * 2 := by
  constructor
  · intro hlt
    apply Rat.not_le.1
    intro h1
    rcases Rat.le_iff_lt_or_eq.1 h1 with h2 | h2
    · have := nearest_le_mid h (Nat.le_of_lt ha) h2
      omega
    · have h3 := nearest_mid ha h2
      rw [if_pos hev] at h3
      have := nearest_unique h h3
      omega
  · exact nearest_gt_mid h ha

/-- Numbers parsed from literals with a fraction or an exponent. IsNegative holds exactly below -2^-1075: what is nearer to zero is read as -0. GreaterThanInt64Max
holds from 2^63 - 512 on, not from 2^63 on. -/
theorem C44_parsed_float_sign (E : Env) (hE : Ieee E) (s x : Bytes) (v : V) (t : Bytes) (n : Num) (q : Rat) (h : goUnmarshal E s = .ok (x, v, none)) (hg : FoundIn E v t n)
    (hs : ShortExp t) (hq : TextValue t q) (hi : ¬ IntText t) :
    isNegative (.num t n) = .ok (decide (q < -1 / (2 : Rat) ^ (1075 : Nat))) ∧ isPositive (.num t n) = .ok (decide (-1 / (2 : Rat) ^ (1075 : Nat) ≤ q)) ∧
    (q < 18446744073709550592 → greaterThanInt64Max (.num t n) = .ok (decide ((9223372036854775296 : Rat) ≤ q))) := by
  obtain ⟨ht, rfl⟩ := found_parsed h hg
  rcases (numTok_iff hE.syntax' t).1 ht with ⟨neg, ds, rfl, hd⟩ | ⟨neg, ip, fp, ep, hf, hp⟩
  · exact absurd ⟨neg, ds, rfl, hd.1⟩ hi
  obtain ⟨b, hb, hpf⟩ := hE.parse t q hq hs
  have hbi : b ≠ double.inf := fun h0 => hp (by rw [hpf, if_pos h0])
  rw [if_neg hbi] at hpf
  have hbl : b < double.inf := by have := hb.le; omega
  have h63 : b < 2 ^ 63 := by have := inf_lt63; omega
  obtain ⟨-, hn⟩ := floatTok_ok hf hpf
  have hm : magnitude (pack (t.head? == some 0x2D) b) < double.inf := by rw [(magnitude_pack h63).1]; exact hbl
  have hfv := floatValue_pack (neg := (t.head? == some 0x2D)) h63
  have hqs := textValue_sign hq
  have hneg : fltNeg (pack (t.head? == some 0x2D) b) = decide (q < -1 / (2 : Rat) ^ (1075 : Nat)) := by
    rw [fltNeg_iff hm, decide_eq_decide, hfv]
    generalize hK : -1 / (2 : Rat) ^ (1075 : Nat) = K
    have e : K * 2 = -(double.val 0 + double.val (0 + 1)) := by rw [← hK]; decide +kernel
    have h1 := nearest_even' hb (a := 0) (by decide) (by decide)
    have h2 : 0 < double.val b ↔ 0 < b := by rw [← double.val_zero, ← Rat.not_le, val_le_iff, Nat.not_le]
    have h3 := double.val_nonneg b
    have h4 := double.val_nonneg (0 + 1)
    have h5 := double.val_zero
    rw [← h2] at h1
    cases hmm : (t.head? == some 0x2D) with
    | true =>
      rw [hmm, if_pos rfl] at hqs
      rw [Rat.abs_of_nonpos hqs] at h1
      rw [if_pos rfl]
      grind
    | false =>
      rw [hmm, if_neg (by decide)] at hqs
      rw [if_neg (by decide)]
      grind
  have hn1 : (numOf E t).negative = fltNeg (pack (t.head? == some 0x2D) b) := by rw [hn]; rfl
  refine ⟨?_, ?_, fun h64 => ?_⟩
  · simp only [isNegative, onV, hn1, hneg]
  · simp only [isPositive, onV, hn1, hneg]
    congr 1
    rw [← decide_not, decide_eq_decide]
    exact Rat.not_lt
  · have h1 := nearest_even hb (a := 0x43EFFFFFFFFFFFFF) (by decide) (by decide)
    have h2 := nearest_even hb (a := 0x43DFFFFFFFFFFFFF) (by decide) (by decide)
    have e1 : double.val 0x43EFFFFFFFFFFFFF + double.val (0x43EFFFFFFFFFFFFF + 1) = 36893488147419101184 := by decide +kernel
    have e2 : double.val 0x43DFFFFFFFFFFFFF + double.val (0x43DFFFFFFFFFFFFF + 1) = 18446744073709550592 := by decide +kernel
    have e3 : double.val 0x43EFFFFFFFFFFFFF < 18446744073709551616 := by decide +kernel
    have e4 : double.val 0x43E0000000000000 = 9223372036854775808 := by decide +kernel
    have e5 : double.val 0x43DFFFFFFFFFFFFF < 9223372036854775808 := by decide +kernel
    rw [e1] at h1
    rw [e2] at h2
    have h3 := double.val_nonneg b
    have hlt : floatValue (pack (t.head? == some 0x2D) b) < 18446744073709551616 := by
      rw [hfv]
      cases hmm : (t.head? == some 0x2D) with
      | true => rw [if_pos rfl]; grind
      | false =>
        rw [hmm, if_neg (by decide)] at hqs
        rw [Rat.abs_of_nonneg hqs] at h1
        have := double.val_le (show b ≤ 0x43EFFFFFFFFFFFFF by
          apply Nat.le_of_not_lt
          rw [h1]
          grind)
        rw [if_neg (by decide)]
        grind
    rw [greater_iff hE hm hlt hn1 (by rw [hn]; rfl), hfv]
    congr 1
    rw [decide_eq_decide]
    cases hmm : (t.head? == some 0x2D) with
    | true =>
      rw [hmm, if_pos rfl] at hqs
      rw [if_pos rfl]
      grind
    | false =>
      rw [hmm, if_neg (by decide)] at hqs
      rw [Rat.abs_of_nonneg hqs] at h2
      rw [if_neg (by decide), Rat.one_mul, ← e4, val_le_iff]
      have : 0x43E0000000000000 ≤ b ↔ 0x43DFFFFFFFFFFFFF < b := by omega
      rw [this, h2]
      grind

/-- a literal with a dot and no exponent -/
theorem lit_dot {E : Env} (hE : Ieee E) {neg : Bool} {ip ds t : Bytes} {q : Rat} (ht : t = sign neg ++ ip ++ 0x2E :: ds) (hip : ip.all isDigitB = true) (hip0 : IntPart ip)
    (hlt : ip.length ≤ 20) (hne : ds ≠ []) (hds : ds.all isDigitB = true)
    (hq : (if neg = true then (-1 : Rat) else 1) * ((decVal ip : Rat) + (decVal ds : Rat) / (10 : Rat) ^ ds.length) = q)
    (hr : q.abs < ((2 ^ 1024 - 2 ^ 970 : Nat) : Rat)) : ShortExp t ∧ TextValue t q ∧ ¬ IntText t ∧ goUnmarshal E t = .ok (t, .num t (numOf E t), none) := by
  have hd1 : Digits ip := digits_of hip
  have hd2 : Digits ds := digits_of hds
  have hip1 : ip ≠ [] := (intPart_digits hip0).2.1
  have hs : ShortExp t := shortExp_none (by
    rw [ht]
    intro c hc
    have key : ∀ {c : UInt8}, Digit c → c ≠ 0x65 ∧ c ≠ 0x45 := by
      rintro c hd
      constructor <;> (rintro rfl; exact absurd hd (by unfold Digit; decide))
    rcases List.mem_append.1 hc with hc | hc
    · rcases List.mem_append.1 hc with hc | hc
      · cases neg with
        | true => simp [sign] at hc; subst hc; decide
        | false => simp [sign] at hc
      · exact key (hd1 c hc)
    · rcases List.mem_cons.1 hc with rfl | hc
      · decide
      · exact key (hd2 c hc))
  have hj : JFloat neg ip t := ⟨0x2E :: ds, [], hip0, .inr ⟨ds, rfl, hne, hd2⟩, .inl rfl, by simp, by simp [ht]⟩
  have hq' : TextValue t q := by
    have := TextValue.mk neg ip (0x2E :: ds) ds [] 0 hd1 hd2 (.inr rfl) (by simp [hip1]) (.inl ⟨rfl, rfl⟩)
    rw [show (10 : Rat) ^ (0 : Int) = 1 from rfl, Rat.mul_one, hq] at this
    simpa [ht] using this
  refine ⟨hs, hq', ?_, lit_parsed hE hj (zerosOK_of_lt hd1 hlt ?_) hs hq' hr⟩
  · rintro ⟨neg', ds', h1, h2⟩
    have hm : (0x2E : UInt8) ∈ t := by rw [ht]; simp
    rw [h1] at hm
    rcases List.mem_append.1 hm with hm | hm
    · cases neg' <;> simp [sign] at hm
    · have := h2 _ hm
      unfold Digit at this
      exact absurd this (by decide)
  · rintro c u rfl
    rcases hip0 with h | ⟨d, ds', h, h1, -⟩
    · cases h
    · cases h
      exact absurd h1 (by decide)

/-- 9223372036854775296.0 is below the largest int64; GreaterThanInt64Max says it is not. -/
theorem C44_greater_counterexample (E : Env) (hE : Ieee E) : let t := asc "9223372036854775296.0"
    TextValue t 9223372036854775296 ∧ ∃ n, goUnmarshal E t = .ok (t, .num t n, none) ∧ greaterThanInt64Max (.num t n) = .ok true := by
  intro t
  obtain ⟨h1, h2, h3, h4⟩ := lit_dot hE (neg := false) (ip := asc "9223372036854775296") (ds := asc "0") (t := t) (q := 9223372036854775296) (by decide +kernel) (by decide +kernel)
    (.inr ⟨0x39, asc "223372036854775296", by decide +kernel, by decide, by decide, digits_of (by decide +kernel)⟩) (by decide +kernel) (by decide +kernel) (by decide +kernel)
    (by decide +kernel) (by decide +kernel)
  refine ⟨h2, _, h4, ?_⟩
  rw [(C44_parsed_float_sign E hE _ _ _ _ _ _ h4 (.inl rfl) h1 h2 h3).2.2 (by decide +kernel)]
  decide +kernel

/-- `-0` is negative, `-0.0` is not -/
theorem C44_zeros (E : Env) (hE : Ieee E) :
    (∃ n, goUnmarshal E (asc "-0") = .ok (asc "-0", .num (asc "-0") n, none) ∧ isNegative (.num (asc "-0") n) = .ok true) ∧
    (∃ n, goUnmarshal E (asc "-0.0") = .ok (asc "-0.0", .num (asc "-0.0") n, none) ∧ isNegative (.num (asc "-0.0") n) = .ok false) := by
  constructor
  · have h1 : goUnmarshal E (asc "-0") = .ok (asc "-0", .num (asc "-0") (intNum E true 0), none) := rfl
    exact ⟨_, h1, rfl⟩
  · obtain ⟨h1, h2, h3, h4⟩ := lit_dot hE (neg := true) (ip := asc "0") (ds := asc "0") (t := asc "-0.0") (q := 0) (by decide +kernel) (by decide +kernel)
      (.inl (by decide +kernel)) (by decide +kernel) (by decide +kernel) (by decide +kernel) (by decide +kernel) (by decide +kernel)
    refine ⟨_, h4, ?_⟩
    rw [(C44_parsed_float_sign E hE _ _ _ _ _ _ h4 (.inl rfl) h1 h2 h3).1]
    decide +kernel

/-! ### float64 of a float32 -/

/-- a float32 is a float64 -/
theorem single_double {a : Nat} (ha : a ≤ single.inf) : ∃ d, d < double.inf ∧ double.val d = single.val a := by
  obtain ⟨s, k, h1, h2, -⟩ := single.units_step a
  have h1 : s < 2 ^ 24 := h1
  obtain ⟨n, hn⟩ : ∃ n, n = 925 := ⟨_, rfl⟩
  obtain ⟨d, hd⟩ := double.units_exists (k + n) s (by show _ < 2 ^ 53; omega)
  have e : double.val d = single.val a := by
    have e1 : ((2 ^ (double.bias + double.p - 1) : Nat) : Rat) = ((2 ^ (single.bias + single.p - 1) : Nat) : Rat) * ((2 ^ n : Nat) : Rat) := by subst hn; decide +kernel
    have hp := single.one_pos
    have hq : (0 : Rat) < ((2 ^ n : Nat) : Rat) := Rat.natCast_pos.2 (Nat.two_pow_pos _)
    have v1 := double.val_mul d
    have v2 := single.val_mul a
    rw [hd, e1] at v1
    rw [h2] at v2
    have e2 : ((s * 2 ^ (k + n) : Nat) : Rat) = ((s * 2 ^ k : Nat) : Rat) * ((2 ^ n : Nat) : Rat) := by
      rw [← Rat.natCast_mul]
      congr 1
      rw [Nat.pow_add, Nat.mul_assoc]
    rw [e2, ← v2] at v1
    have hpq := Rat.mul_pos hp hq
    refine Rat.le_antisymm (Rat.le_of_mul_le_mul_right (c := ((2 ^ (single.bias + single.p - 1) : Nat) : Rat) * ((2 ^ n : Nat) : Rat)) ?_ hpq)
      (Rat.le_of_mul_le_mul_right (c := ((2 ^ (single.bias + single.p - 1) : Nat) : Rat) * ((2 ^ n : Nat) : Rat)) ?_ hpq) <;> grind
  refine ⟨d, ?_, e⟩
  apply Nat.lt_of_not_le
  intro h
  have h3 := double.val_le h
  have h4 := single.val_le ha
  have e5 : single.val single.inf < double.val double.inf := by decide +kernel
  grind

/-- Every finite float32 is exactly one float64. -/
theorem widened_exists (g : BitVec 32) (hg : g.toNat % 2 ^ 31 < single.inf) : ∃ f, Widened g f ∧ ∀ f', Widened g f' → f' = f := by
  obtain ⟨d, h1, h2⟩ := single_double (Nat.le_of_lt hg)
  have h63 : d < 2 ^ 63 := by have := inf_lt63; omega
  obtain ⟨h3, h4⟩ := magnitude_pack (neg := g.msb) h63
  refine ⟨pack g.msb d, ⟨hg, by rw [h3]; exact h1, by rw [h3]; exact h2, h4⟩, fun f' hf => ?_⟩
  have h5 : magnitude f' = d := val_inj (hf.same.trans h2.symm)
  rw [← h5, ← hf.sign, pack_magnitude]

/-- Back to float32 it is the same. -/
theorem widened_back {E : Env} (hE : Ieee E) {g : BitVec 32} {f : BitVec 64} (h : Widened g f) : E.f64ToF32 f = g := by
  have hv : (floatValue f).abs = double.val (magnitude f) := abs_sign _ (double.val_nonneg _)
  have := h.fin
  rw [hE.toF32 f (g.toNat % 2 ^ 31) h.fin64 (by rw [hv, h.same]; exact nearest_self (by omega)) (by omega), h.sign, pack32_self]

/-- NewFloat32(g).Float32() is `g`. -/
theorem C84_in_memory (E : Env) (hE : Ieee E) (T : FloatText) (g : BitVec 32) (f : BitVec 64) (h : Widened g f) : float32 E (newFloat E T true f) = .ok g :=
  congrArg R.ok (widened_back hE h)

/-- SetFloat32(g) and GetFloat32 (C58) for finite `g`, without its hypothesis on the conversions. -/
theorem C58_float32 (E : Env) (hE : Ieee E) (F : FloatText) (up : BitVec 32 → BitVec 64) (v v' : V) (g : BitVec 32) (ps : List Param) (l : List Step) (hg : Widened g (up g))
    (h : setT E F up v (.float32 g) ps = (v', .ok l)) (hs : ¬ Skips v ps) (cl : Bool) : GotBack E cl v' ps (.float32 g) :=
  C58_set_get_partial E F up v v' _ ps l (fun f hf => by cases hf; exact widened_back hE hg) h hs cl

end JV
