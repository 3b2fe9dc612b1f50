import Verif.Proofs.FewDigits
import Verif.Spec.FewDigits
import Verif.Props.Ieee
import Verif.Props.Compare
/-!
C86: numbers with up to 15 digits survive float64, those with up to 6 digits float32.
-/
namespace JV
open Spec

/-- the texts of floats are short -/
theorem floatText_len {O : DigitFn} {w : Bool} {f : BitVec 64} (h : Shortest O w f) : (newFloatText O w f).length ≤ 4000 := by
  rw [newFloatText_eq h]
  have hg := h.good
  have hf := h.few
  generalize shortest O w f = g at *
  have hs : (sign f.msb).length ≤ 1 := by cases f.msb <;> simp [sign]
  have h1 := hg.2.2.2.1
  have h2 := hg.2.2.2.2
  split
  · rw [fmtE_eq]
    have h3 : (fmtExp (if g.d = [] then 0 else g.dp - 1)).length ≤ 4 := by
      unfold fmtExp
      generalize (if g.d = [] then (0 : Int) else g.dp - 1) = y
      simp only [List.length_cons]
      split
      · simp
      · split <;> simp
    simp only [List.length_append, List.length_cons, List.length_nil]
    have h4 : (if max ((g.d.length : Int) - 1) 0 > 0 then 0x2E :: eFrac g (max ((g.d.length : Int) - 1) 0).toNat else []).length ≤ 18 := by
      split
      · rw [List.length_cons, eFrac_len]; omega
      · simp
    omega
  · rw [fmtF_eq]
    simp only [List.length_append]
    have h3 : (fInt g).length ≤ 1000 := by
      unfold fInt
      split
      · simp only [List.length_append, List.length_replicate, List.length_take]; omega
      · simp
    have h4 : ∀ y : Bytes, (if max ((g.d.length : Int) - g.dp) 0 > 0 then 0x2E :: y.take (max ((g.d.length : Int) - g.dp) 0).toNat else []).length ≤ 2000 := by
      intro y
      split
      · rw [List.length_cons, List.length_take]; omega
      · simp
    have := h4 (fPad g ++ List.replicate (max ((g.d.length : Int) - g.dp) 0).toNat 0x30)
    omega

theorem smallExp_of_short {t : Bytes} (h : ShortExp t) (hl : t.length < 2 ^ 30) : SmallExp t :=
  ⟨by omega, fun body e sg d ht he hsg hd => by have := h body e sg d ht he hsg hd; omega⟩

/-- the number that NewFloat64 writes is the fewest digits with the sign -/
theorem floatText_few {O : DigitFn} {w : Bool} {f : BitVec 64} {t : Bytes} {q : Rat} (hs : Shortest O w f) (hq : TextValue t q) (hsign : f.msb = (t.head? == some 0x2D))
    (h : digitsValue false (shortest O w f) = q.abs) : TextValue (newFloatText O w f) q := by
  have h1 := (C60_value O w f hs).2
  rw [digitsValue_sign, h] at h1
  have h2 := textValue_sign hq
  rw [← hsign] at h2
  have e : q = (if f.msb = true then -1 else 1) * q.abs := by
    unfold Rat.abs
    revert h2
    cases f.msb <;> simp <;> grind
  rwa [← e] at h1

theorem newFloat_finite (E : Env) (O : DigitFn) (w : Bool) {f : BitVec 64} (h : finite f = true) : ∃ m, newFloat E (newFloatText O) w f = .num (newFloatText O w f) m := by
  unfold newFloat newFloat64f
  rw [if_pos (finite_valid h)]
  exact ⟨_, rfl⟩

theorem few_zero {m : Nat} {a : Int} (h : (0 : Rat).abs = (m : Rat) * (10 : Rat) ^ a) : m = 0 := by
  by_cases h0 : m = 0
  · exact h0
  exfalso
  have hp : (0 : Rat) < m := Rat.natCast_pos.2 (Nat.pos_of_ne_zero h0)
  have := Rat.mul_pos hp (ten_pos a)
  rw [← h] at this
  revert this
  decide +kernel

theorem pack32_parts {neg : Bool} {b : Nat} (hb : b < 2 ^ 31) : (pack32 neg b).toNat % 2 ^ 31 = b ∧ (pack32 neg b).msb = neg := by
  unfold pack32
  rw [BitVec.msb_eq_decide, BitVec.toNat_ofNat]
  cases neg
  · rw [if_neg (by decide)]
    simp
    omega
  · rw [if_pos rfl]
    simp
    omega

/-! ### C86 -/

/-- a number with at most 15 digits is what is written for the float that is nearest to it -/
theorem few_kept {O : DigitFn} (hO : GoDigits O) {t : Bytes} {q : Rat} {b : Nat} (hq : TextValue t q) (h3 : b < double.inf) (h2 : Nearest double q.abs b) (h15 : FewDigits 15 q)
    (hr : q = 0 ∨ (2 : Rat) ^ (-1022 : Int) ≤ q.abs) : TextValue (newFloatText O false (pack (t.head? == some 0x2D) b)) q := by
  have h63 : b < 2 ^ 63 := by have := inf_lt63; omega
  obtain ⟨hmag, hmsb⟩ := magnitude_pack (neg := t.head? == some 0x2D) h63
  generalize pack (t.head? == some 0x2D) b = f at *
  have hfin : magnitude f < double.inf := by omega
  have hsh := shortest_double hO hfin
  obtain ⟨m, a, hm, hma⟩ := h15
  have hd : digitsValue false (shortest O false f) = q.abs := by
    rw [hma]
    have hF := hO.double f hfin
    rw [hmag] at hF
    refine fewest_few_digits hF (N := 15) (by decide) h3 hm ?_ (hma ▸ h2)
    rcases hr with hr | hr
    · left
      subst hr
      exact few_zero hma
    · right
      rw [← hma]
      have e : double.val (2 ^ double.p) = (2 : Rat) ^ (-1022 : Int) := by decide +kernel
      rwa [e]
  exact floatText_few hsh hq hmsb hd

/-- C86 as stated: false, see the counterexamples. -/
def C86_statement : Prop := ∀ (E : Env), Ieee E → ∀ (O : DigitFn), GoDigits O → ∀ (s x : Bytes) (v : V) (t : Bytes) (n : Num) (q : Rat),
  goUnmarshal E s = .ok (x, v, none) → FoundIn E v t n → ShortExp t → t.length < 2 ^ 30 → TextValue t q → FewDigits 15 q →
  ∃ f, float64 E (.num t n) = .ok f ∧ equal newFromString (.num t n) (newFloat E (newFloatText O) false f) = true

/-- A number in a document that is written with at most 15 significant digits and is not below 2^-1022 (or is zero), is the number that is written for NewFloat64 of
its Float64(); the two values are Equal. An integer has to be below 2^64. -/
theorem C86_partial (E : Env) (hE : Ieee E) (O : DigitFn) (hO : GoDigits O) (s x : Bytes) (v : V) (t : Bytes) (n : Num) (q : Rat)
    (h : goUnmarshal E s = .ok (x, v, none)) (hg : FoundIn E v t n) (hs : ShortExp t) (hw : Digits t → decVal t < 2 ^ 64) (hq : TextValue t q)
    (h15 : FewDigits 15 q) (hr : q = 0 ∨ (2 : Rat) ^ (-1022 : Int) ≤ q.abs) :
    ∃ f u m, float64 E (.num t n) = .ok f ∧ newFloat E (newFloatText O) false f = .num u m ∧ TextValue u q ∧
      (∀ S d opts, marshal E S d (newFloat E (newFloatText O) false f) opts = .ok (u, none)) ∧
      (t.length < 2 ^ 30 → equal newFromString (.num t n) (newFloat E (newFloatText O) false f) = true) := by
  obtain ⟨q', b, h1, h2, h3, h4⟩ := C81_partial E hE s x v t n h hg hs hw
  obtain rfl := textValue_unique h1 hq
  have htv := few_kept hO hq h3 h2 h15 hr
  have h63 : b < 2 ^ 63 := by have := inf_lt63; omega
  obtain ⟨hmag, hmsb⟩ := magnitude_pack (neg := t.head? == some 0x2D) h63
  generalize pack (t.head? == some 0x2D) b = f at *
  have hfin : magnitude f < double.inf := by omega
  have hsh := shortest_double hO hfin
  obtain ⟨m', hnf⟩ := newFloat_finite E O false ((finite_iff f).2 hfin)
  refine ⟨f, _, _, h4, hnf, htv, fun S d opts => floatText_marshal hsh ((finite_iff f).2 hfin) E S d opts, fun hl => ?_⟩
  rw [hnf]
  refine (C51_by_value_partial _ _ _ _ _ _ hq htv (smallExp_of_short hs hl) (smallExp_of_short (floatText_shortExp hsh) ?_)).1.2 rfl
  have := floatText_len hsh
  omega

theorem equal_floatText (E : Env) {O : DigitFn} (hO : GoDigits O) {t : Bytes} (n : Num) {q : Rat} {f : BitVec 64} (hf : finite f = true) (hs : ShortExp t) (hl : t.length < 2 ^ 30)
    (hq : TextValue t q) : equal newFromString (.num t n) (newFloat E (newFloatText O) false f) = true ↔ q = digitsValue f.msb (shortest O false f) := by
  have hsh := shortest_double hO ((finite_iff f).1 hf)
  obtain ⟨m', hnf⟩ := newFloat_finite E O false hf
  rw [hnf]
  have hlen := floatText_len hsh
  exact (C51_by_value_partial _ _ _ _ _ _ hq (C60_value O false f hsh).2 (smallExp_of_short hs hl) (smallExp_of_short (floatText_shortExp hsh) (by omega))).1

-- 7.038531e-26
example (E : Env) (hE : Ieee E) (O : DigitFn) (hO : GoDigits O) : ∃ n f, goUnmarshal E (asc "7.038531e-26") = .ok (asc "7.038531e-26", .num (asc "7.038531e-26") n, none) ∧
    float64 E (.num (asc "7.038531e-26") n) = .ok f ∧ equal newFromString (.num (asc "7.038531e-26") n) (newFloat E (newFloatText O) false f) = true := by
  obtain ⟨h1, h2, h3⟩ := lit_tie hE
  obtain ⟨f, u, m, h4, -, -, -, h5⟩ := C86_partial E hE O hO _ _ _ _ _ _ h3 (.inl rfl) h1 (fun h => absurd (h 0x2E (by decide +kernel)) (by unfold Digit; decide)) h2
    ⟨7038531, -32, by decide, by decide +kernel⟩ (.inr (by decide +kernel))
  exact ⟨_, f, h3, h4, h5 (by decide +kernel)⟩

/-- Numbers that survive float64 can be written with 17 significant digits. -/
theorem C86_most (E : Env) (O : DigitFn) (hO : GoDigits O) (t : Bytes) (n : Num) (q : Rat) (f : BitVec 64) (hf : finite f = true) (hs : ShortExp t) (hl : t.length < 2 ^ 30)
    (hq : TextValue t q) (h : equal newFromString (.num t n) (newFloat E (newFloatText O) false f) = true) : FewDigits 17 q := by
  have hsh := shortest_double hO ((finite_iff f).1 hf)
  refine ⟨decVal (shortest O false f).d, (shortest O false f).dp - (shortest O false f).d.length, ?_, ?_⟩
  · exact Nat.lt_of_lt_of_le (decVal_le _ hsh.good.1) (Nat.pow_le_pow_right (by omega) hsh.few)
  · rw [(equal_floatText E hO n hf hs hl hq).1 h, digitsValue_abs, digitsValue_false]

/-- The same for float32 and six digits: if Float32() is the nearest float32 (C83 says when that is so), NewFloat32 of it is written as the same number and Equal. -/
theorem C86_float32 (E : Env) (O : DigitFn) (hO : GoDigits O) (t : Bytes) (n : Num) (q : Rat) (c : Nat) (f : BitVec 64) (hs : ShortExp t) (hq : TextValue t q)
    (h6 : FewDigits 6 q) (hr : q = 0 ∨ (2 : Rat) ^ (-126 : Int) ≤ q.abs) (hc : Nearest single q.abs c) (hci : c < single.inf)
    (hg : float32 E (.num t n) = .ok (pack32 (t.head? == some 0x2D) c)) (hf : ∀ g, float32 E (.num t n) = .ok g → Widened g f) :
    ∃ u m, newFloat E (newFloatText O) true f = .num u m ∧ TextValue u q ∧
      (∀ S d opts, marshal E S d (newFloat E (newFloatText O) true f) opts = .ok (u, none)) ∧
      (t.length < 2 ^ 30 → equal newFromString (.num t n) (newFloat E (newFloatText O) true f) = true) := by
  obtain ⟨h1, h2, h3, h4⟩ := hf _ hg
  have h31 : c < 2 ^ 31 := Nat.lt_trans hci (by decide)
  rw [(pack32_parts h31).1] at h1 h3
  rw [(pack32_parts h31).2] at h4
  have hsh := shortest_single hO h2 hci h3
  obtain ⟨m, a, hm, hma⟩ := h6
  have hd : digitsValue false (shortest O true f) = q.abs := by
    rw [hma]
    refine fewest_few_digits (hO.single f c h2 hci h3) (N := 6) (by decide) hci hm ?_ (hma ▸ hc)
    rcases hr with hr | hr
    · left
      subst hr
      exact few_zero hma
    · right
      rw [← hma]
      have e : single.val (2 ^ single.p) = (2 : Rat) ^ (-126 : Int) := by decide +kernel
      rwa [e]
  have htv := floatText_few hsh hq h4 hd
  obtain ⟨m', hnf⟩ := newFloat_finite E O true ((finite_iff f).2 h2)
  refine ⟨_, _, hnf, htv, fun S d opts => floatText_marshal hsh ((finite_iff f).2 h2) E S d opts, fun hl => ?_⟩
  rw [hnf]
  refine (C51_by_value_partial _ _ _ _ _ _ hq htv (smallExp_of_short hs hl) (smallExp_of_short (floatText_shortExp hsh) ?_)).1.2 rfl
  have := floatText_len hsh
  omega

theorem lit_half {E : Env} (hE : Ieee E) : let t := asc "-1.5"
    ShortExp t ∧ TextValue t (-3 / 2) ∧ goUnmarshal E t = .ok (t, .num t (numOf E t), none) := by
  intro t
  have hs : ShortExp t := shortExp_none (by decide +kernel)
  have hj : JFloat true (asc "1") t := ⟨asc ".5", [], .inr ⟨0x31, [], by decide +kernel, by decide, by decide, by simp [Digits]⟩,
    .inr ⟨asc "5", by decide +kernel, by decide +kernel, digits_of (by decide +kernel)⟩, .inl rfl, by decide +kernel, by decide +kernel⟩
  have hq : TextValue t (-3 / 2) := by
    have := TextValue.mk true (asc "1") (asc ".5") (asc "5") [] 0 (digits_of (by decide +kernel)) (digits_of (by decide +kernel))
      (.inr (by decide +kernel)) (by decide +kernel) (.inl ⟨rfl, rfl⟩)
    have e : (if true = true then (-1 : Rat) else 1) * ((decVal (asc "1") : Rat) + (decVal (asc "5") : Rat) / (10 : Rat) ^ (asc "5").length) * (10 : Rat) ^ (0 : Int) =
        -3 / 2 := by decide +kernel
    rw [e] at this
    exact this
  refine ⟨hs, hq, lit_parsed hE hj (zerosOK_of_lt (digits_of (by decide +kernel)) (by decide +kernel) ?_) hs hq (by decide +kernel)⟩
  intro c u h
  exact absurd (congrArg List.length h) (by rw [show (asc "1").length = 1 from by decide +kernel]; simp)

-- -1.5
example (E : Env) (hE : Ieee E) (O : DigitFn) (hO : GoDigits O) : ∃ n, goUnmarshal E (asc "-1.5") = .ok (asc "-1.5", .num (asc "-1.5") n, none) ∧
    float32 E (.num (asc "-1.5") n) = .ok 0xBFC00000#32 ∧ equal newFromString (.num (asc "-1.5") n) (newFloat E (newFloatText O) true 0xBFF8000000000000#64) = true := by
  obtain ⟨h1, h2, h3⟩ := lit_half hE
  have e : single.val 0x3FC00000 = (-3 / 2 : Rat).abs := by decide +kernel
  have hn : Nearest single (-3 / 2 : Rat).abs 0x3FC00000 := e ▸ nearest_self (by decide)
  have h4 := C83_partial E hE _ _ _ _ _ (-3 / 2) 0x3FC00000 h3 (.inl rfl) h1 (fun h => absurd (h 0x2E (by decide +kernel)) (by unfold Digit; decide)) h2 hn (by decide)
    0x3FF8000000000000 (by decide +kernel)
  have e1 : pack32 ((asc "-1.5").head? == some 0x2D) 0x3FC00000 = 0xBFC00000#32 := by decide +kernel
  obtain ⟨u, m, -, -, -, h5⟩ := C86_float32 E O hO _ (numOf E (asc "-1.5")) (-3 / 2) 0x3FC00000 0xBFF8000000000000#64 h1 h2 ⟨15, -1, by decide, by decide +kernel⟩ (.inr (by decide +kernel)) hn
    (by decide) h4 (fun g hg => by
      rw [h4, e1] at hg
      cases hg
      exact ⟨by decide, by decide, by decide +kernel, by decide⟩)
  exact ⟨_, h3, by rw [h4, e1], h5 (by decide +kernel)⟩

theorem few_least {n M : Nat} {e : Int} (h : FewDigits n ((M : Rat) * (10 : Rat) ^ e)) (hM : M % 10 ≠ 0) : M < 10 ^ n := by
  obtain ⟨m, a, h1, h2⟩ := h
  have hnn : (0 : Rat) ≤ (M : Rat) * (10 : Rat) ^ e := Rat.mul_nonneg Rat.natCast_nonneg (Rat.le_of_lt (ten_pos e))
  rw [Rat.abs_of_nonneg hnn] at h2
  have cancel : ∀ {x y : Rat} (k : Int), x * (10 : Rat) ^ k = y * (10 : Rat) ^ k → x = y := by
    intro x y k hk
    refine Rat.le_antisymm ?_ ?_
    · exact Rat.le_of_mul_le_mul_right (by rw [hk]; exact Rat.le_refl) (ten_pos k)
    · exact Rat.le_of_mul_le_mul_right (by rw [hk]; exact Rat.le_refl) (ten_pos k)
  rcases Int.le_total a e with h3 | h3
  · obtain ⟨k, hk⟩ : ∃ k : Nat, e = k + a := ⟨(e - a).toNat, by omega⟩
    rw [hk, ten_add, ten_nat, ← Rat.mul_assoc] at h2
    have h4 := cancel a h2
    rw [← Rat.natCast_mul] at h4
    have h5 := Rat.natCast_inj.1 h4
    have : M ≤ M * 10 ^ k := Nat.le_mul_of_pos_right _ (Nat.pow_pos (by omega))
    omega
  · obtain ⟨k, hk⟩ : ∃ k : Nat, a = k + e := ⟨(a - e).toNat, by omega⟩
    rw [hk, ten_add, ten_nat, ← Rat.mul_assoc] at h2
    have h4 := cancel e h2
    rw [← Rat.natCast_mul] at h4
    have h5 := Rat.natCast_inj.1 h4
    cases k with
    | zero => rw [h5]; simpa using h1
    | succ k =>
      exfalso
      apply hM
      rw [h5, Nat.pow_succ, ← Nat.mul_assoc]
      exact Nat.mul_mod_left _ _

/-- `4.9e-324` (what Java writes for its Double.MIN_VALUE) -/
theorem lit_min {E : Env} (hE : Ieee E) : let t := asc "4.9e-324"
    ShortExp t ∧ TextValue t ((49 : Nat) * (10 : Rat) ^ (-325 : Int)) ∧ goUnmarshal E t = .ok (t, .num t (numOf E t), none) := by
  intro t
  have hs : ShortExp t := by
    have := shortExp_of (pre := asc "4.9") (e := 0x65) (sg := [0x2D]) (d := asc "324") (by decide +kernel) (by simp) (digits_of (by decide +kernel)) (by decide +kernel)
    have e : asc "4.9" ++ (0x65 : UInt8) :: [0x2D] ++ asc "324" = t := by decide +kernel
    rwa [e] at this
  have hj : JFloat false (asc "4") t := ⟨asc ".9", asc "e-324", .inr ⟨0x34, [], by decide +kernel, by decide, by decide, by simp [Digits]⟩,
    .inr ⟨asc "9", by decide +kernel, by decide +kernel, digits_of (by decide +kernel)⟩,
    .inr ⟨0x65, [0x2D], asc "324", by decide +kernel, by simp, by simp, by decide +kernel, digits_of (by decide +kernel)⟩, by decide +kernel, by decide +kernel⟩
  have hq : TextValue t ((49 : Nat) * (10 : Rat) ^ (-325 : Int)) := by
    have := TextValue.mk false (asc "4") (asc ".9") (asc "9") (asc "e-324") (-324) (digits_of (by decide +kernel)) (digits_of (by decide +kernel))
      (.inr (by decide +kernel)) (by decide +kernel) (.inr ⟨0x65, [0x2D], asc "324", by decide +kernel, by simp, digits_of (by decide +kernel), by decide +kernel, .inr ⟨rfl, by decide +kernel⟩⟩)
    have e : (if false = true then (-1 : Rat) else 1) * ((decVal (asc "4") : Rat) + (decVal (asc "9") : Rat) / (10 : Rat) ^ (asc "9").length) * (10 : Rat) ^ (-324 : Int) =
        ((49 : Nat) * (10 : Rat) ^ (-325 : Int)) := by decide +kernel
    rw [e] at this
    have e' : sign false ++ asc "4" ++ asc ".9" ++ asc "e-324" = t := by decide +kernel
    rwa [e'] at this
  refine ⟨hs, hq, lit_parsed hE hj (zerosOK_of_lt (digits_of (by decide +kernel)) (by decide +kernel) ?_) hs hq (by decide +kernel)⟩
  intro c u h
  exact absurd (congrArg List.length h) (by rw [show (asc "4").length = 1 from by decide +kernel]; simp)

theorem near_min : Nearest double ((49 : Nat) * (10 : Rat) ^ (-325 : Int)) 1 := by
  rw [nearest_iff]
  refine ⟨by decide, fun _ => .inl (by decide +kernel), fun c hc => .inl ?_⟩
  obtain rfl : c = 0 := by omega
  decide +kernel

/-- Below 2^-1022 two digits may be too many: `4.9e-324` is read as the smallest float64, and NewFloat64 writes `5e-324` for that. -/
theorem C86_subnormal (E : Env) (hE : Ieee E) (O : DigitFn) (hO : GoDigits O) : let t := asc "4.9e-324"
    ∃ n, goUnmarshal E t = .ok (t, .num t n, none) ∧ float64 E (.num t n) = .ok 1#64 ∧ equal newFromString (.num t n) (newFloat E (newFloatText O) false 1#64) = false := by
  intro t
  obtain ⟨h1, h2, h3⟩ := lit_min hE
  refine ⟨_, h3, ?_, ?_⟩
  · obtain ⟨q, b, h4, h5, h6, h7⟩ := C81_partial E hE _ _ _ _ _ h3 (.inl rfl) h1 (fun h => absurd (h 0x2E (by decide +kernel)) (by unfold Digit; decide))
    rw [textValue_unique h4 h2, Rat.abs_of_nonneg (by decide +kernel)] at h5
    rw [h7, nearest_unique h5 near_min]
    decide +kernel
  · rw [← Bool.not_eq_true, equal_floatText E hO _ (by decide) h1 (by decide +kernel) h2]
    intro h
    have hF := hO.double 1#64 (by decide)
    have hl := hF.fewest ⟨asc "5", -323⟩ (digits_of (by decide +kernel)) (by
      rw [show magnitude 1#64 = 1 by decide, nearest_iff]
      refine ⟨by decide, fun _ => .inl (by decide +kernel), fun c hc => .inl ?_⟩
      obtain rfl : c = 0 := by omega
      decide +kernel)
    have hl : (shortest O false 1#64).d.length ≤ 1 := hl
    have hfew : FewDigits 1 ((49 : Nat) * (10 : Rat) ^ (-325 : Int)) := by
      refine ⟨decVal (shortest O false 1#64).d, (shortest O false 1#64).dp - (shortest O false 1#64).d.length, ?_, ?_⟩
      · exact Nat.lt_of_lt_of_le (decVal_le _ hF.digits) (Nat.pow_le_pow_right (by omega) hl)
      · rw [h, digitsValue_abs, digitsValue_false]
    exact absurd (few_least hfew (by decide)) (by decide)

/-- Sixteen digits may be too many: `9007199254740993.0` is read as 9007199254740992. -/
theorem C86_sixteen (E : Env) (hE : Ieee E) (O : DigitFn) (hO : GoDigits O) : let t := asc "9007199254740993.0"
    ∃ n f, goUnmarshal E t = .ok (t, .num t n, none) ∧ float64 E (.num t n) = .ok f ∧ equal newFromString (.num t n) (newFloat E (newFloatText O) false f) = false := by
  intro t
  obtain ⟨h1, h2, -, h3⟩ := lit_big hE
  have h2 : TextValue t ((9007199254740993 : Nat) * (10 : Rat) ^ (0 : Int)) := by
    have e : ((9007199254740993 : Int) : Rat) = ((9007199254740993 : Nat) * (10 : Rat) ^ (0 : Int)) := by decide +kernel
    rwa [e] at h2
  have hf : float64 E (.num t (numOf E t)) = .ok 0x4340000000000000#64 := by
    obtain ⟨q, b, h4, h5, h6, h7⟩ := C81_partial E hE _ _ _ _ _ h3 (.inl rfl) h1 (fun h => absurd (h 0x2E (by decide +kernel)) (by unfold Digit; decide))
    rw [textValue_unique h4 h2, Rat.abs_of_nonneg (by decide +kernel)] at h5
    have : Nearest double ((9007199254740993 : Nat) * (10 : Rat) ^ (0 : Int)) 0x4340000000000000 := by
      rw [nearest_iff]
      refine ⟨by decide, fun _ => .inr (by decide +kernel), fun c hc => .inl ?_⟩
      obtain rfl : c = 0x433fffffffffffff := by omega
      decide +kernel
    rw [h7, nearest_unique h5 this]
    decide +kernel
  refine ⟨_, _, h3, hf, ?_⟩
  rw [← Bool.not_eq_true, equal_floatText E hO _ (by decide) h1 (by decide +kernel) h2]
  intro h
  have hm : magnitude 0x4340000000000000#64 = 0x4340000000000000 := by decide
  have hF := hO.double 0x4340000000000000#64 (by decide)
  rw [hm] at hF
  have hn : Nearest double (digitsValue false ⟨asc "9007199254740992", 16⟩) 0x4340000000000000 := by
    have e : digitsValue false ⟨asc "9007199254740992", 16⟩ = double.val 0x4340000000000000 := by decide +kernel
    rw [e]
    exact nearest_self (by decide)
  have hl := hF.fewest _ (digits_of (by decide +kernel)) hn
  have hl : (shortest O false 0x4340000000000000#64).d.length ≤ 16 := hl
  rw [show (0x4340000000000000#64).msb = false by decide] at h
  have hge : ¬ (shortest O false 0x4340000000000000#64).d.length ≤ 15 := by
    intro hle
    have hfew : FewDigits 15 ((9007199254740993 : Nat) * (10 : Rat) ^ (0 : Int)) := by
      refine ⟨decVal (shortest O false 0x4340000000000000#64).d, (shortest O false 0x4340000000000000#64).dp - (shortest O false 0x4340000000000000#64).d.length, ?_, ?_⟩
      · exact Nat.lt_of_lt_of_le (decVal_le _ hF.digits) (Nat.pow_le_pow_right (by omega) hle)
      · rw [h, digitsValue_abs, digitsValue_false]
    exact absurd (few_least hfew (by decide)) (by decide)
  have hc := hF.close _ (digits_of (by decide +kernel)) (show (asc "9007199254740992").length = _ by rw [show (asc "9007199254740992").length = 16 by decide +kernel]; omega) hn
  rw [← h] at hc
  revert hc
  decide +kernel

/-- Integers from 2^64 on may wrap around: `30000000000000000000` is read as 11553255926290448384. -/
theorem C86_wraps (E : Env) (hE : Ieee E) (O : DigitFn) (hO : GoDigits O) : let t := asc "30000000000000000000"
    ∃ n f, goUnmarshal E t = .ok (t, .num t n, none) ∧ float64 E (.num t n) = .ok f ∧ equal newFromString (.num t n) (newFloat E (newFloatText O) false f) = false := by
  intro t
  obtain ⟨-, w, h1, -, h2⟩ := C61_wraps E
  have hd : Digits (asc "30000000000000000000") := digits_of (by decide +kernel)
  obtain ⟨-, rfl⟩ := unmarshal_intText (neg := false) hd (by decide +kernel) (goUnmarshal_ok.1 h1).2
  obtain ⟨b, h9, h10⟩ := hE.u64 11553255926290448384#64
  have hle : b ≤ 0x43E8000000000000 := nearest_le h9 (by decide) (by decide +kernel)
  have hi : 0x43E8000000000000 < double.inf := by decide
  have h63 := inf_lt63
  obtain ⟨hmag, hmsb⟩ := magnitude_pack (neg := false) (b := b) (by omega)
  refine ⟨_, _, h1, h2, ?_⟩
  rw [h10]
  obtain ⟨q, h3, h4, -⟩ := intText_value false hd (by decide +kernel)
  have hs : ShortExp t := shortExp_none (notE_digits hd)
  have hfin : finite (pack false b) = true := (finite_iff _).2 (by omega)
  rw [← Bool.not_eq_true]
  intro he
  have h := (equal_floatText E hO _ hfin hs (by decide +kernel) h3).1 he
  have hF := (hO.double (pack false b) (by omega)).reads
  rw [← digitsValue_abs (pack false b).msb, ← h, hmag, h4] at hF
  have hge : 0x43F0000000000000 ≤ b := nearest_ge hF (by decide) (by decide +kernel)
  omega

theorem C86_counterexample : ¬ C86_statement := by
  intro h
  obtain ⟨n, h1, h2, h3⟩ := C86_subnormal _ (ieeeEnv_ok sampleEnv) _ goDigitsFn_ok
  obtain ⟨h4, h5, -⟩ := lit_min (ieeeEnv_ok sampleEnv)
  obtain ⟨f, h6, h7⟩ := h _ (ieeeEnv_ok sampleEnv) _ goDigitsFn_ok _ _ _ _ _ _ h1 (.inl rfl) h4 (by decide +kernel) h5 ⟨49, -325, by decide, by decide +kernel⟩
  rw [h2] at h6
  cases h6
  rw [h3] at h7
  cases h7

end JV
