import Verif.Proofs.IeeeRange
/-!
Integers and float32 numbers among the float64 numbers.
-/
namespace JV
open Spec

/-! ### bits -/

theorem magnitude_pack {neg : Bool} {b : Nat} (hb : b < 2 ^ 63) : magnitude (pack neg b) = b ∧ (pack neg b).msb = neg := by
  unfold magnitude pack
  rw [BitVec.msb_eq_decide, BitVec.toNat_ofNat]
  cases neg
  · rw [if_neg (by decide)]
    constructor
    · omega
    · simp; omega
  · rw [if_pos rfl]
    constructor
    · omega
    · simp; omega

theorem floatValue_pack {neg : Bool} {b : Nat} (hb : b < 2 ^ 63) : floatValue (pack neg b) = (if neg then -1 else 1) * double.val b := by
  obtain ⟨h1, h2⟩ := magnitude_pack (neg := neg) hb
  unfold floatValue
  rw [h1, h2]

theorem floatValue_abs {neg : Bool} {b : Nat} (hb : b < 2 ^ 63) : (floatValue (pack neg b)).abs = double.val b := by
  rw [floatValue_pack hb]
  exact abs_sign neg (double.val_nonneg b)

theorem inf_lt63 : double.inf < 2 ^ 63 := by decide

theorem pack32_inj {neg : Bool} {b c : Nat} (hb : b < 2 ^ 31) (hc : c < 2 ^ 31) (h : pack32 neg b = pack32 neg c) : b = c := by
  unfold pack32 at h
  have h := congrArg BitVec.toNat h
  rw [BitVec.toNat_ofNat, BitVec.toNat_ofNat] at h
  cases neg <;> simp at h <;> omega

theorem pack32_self (g : BitVec 32) : pack32 g.msb (g.toNat % 2 ^ 31) = g := by
  apply BitVec.eq_of_toNat_eq
  unfold pack32
  rw [BitVec.toNat_ofNat, BitVec.msb_eq_decide]
  have := g.isLt
  by_cases h : 2 ^ 31 ≤ g.toNat
  · simp [h]; omega
  · simp [h]; omega

/-! ### integers -/

theorem trunc_int (i : Int) : trunc (i : Rat) = i := by
  unfold trunc
  split
  · exact Rat.floor_intCast i
  · rw [← Rat.intCast_neg, Rat.floor_intCast, Int.neg_neg]

/-- the integers up to 2^53 are float64 numbers -/
theorem nat_double {n : Nat} (hn : n ≤ 2 ^ 53) : ∃ c, double.val c = (n : Rat) := by
  have h : ∀ k, ∃ c, double.units c = n * 2 ^ k := by
    intro k
    by_cases hlt : n < 2 ^ 53
    · exact double.units_exists k n hlt
    · obtain ⟨c, hc⟩ := double.units_exists (k + 1) (2 ^ 52) (by decide)
      refine ⟨c, ?_⟩
      rw [hc, show n = 2 ^ 52 * 2 by omega, Nat.mul_assoc, Nat.pow_succ 2 k, Nat.mul_comm (2 ^ k)]
  obtain ⟨c, hc⟩ := h 1074
  refine ⟨c, ?_⟩
  have hm := double.val_mul c
  rw [hc, Rat.natCast_mul] at hm
  have hp := double.one_pos
  have e : double.bias + double.p - 1 = 1074 := rfl
  rw [e] at hm hp
  exact Rat.le_antisymm (Rat.le_of_mul_le_mul_right (by rw [hm]; exact Rat.le_refl) hp) (Rat.le_of_mul_le_mul_right (by rw [hm]; exact Rat.le_refl) hp)

/-- from 2^52 on every float64 is an integer -/
theorem double_nat {b : Nat} (hb : 0x4330000000000000 ≤ b) : ∃ n : Nat, double.val b = (n : Rat) := by
  have hu : ∃ n, double.units b = n * 2 ^ 1074 := by
    unfold Fmt.units
    rw [if_neg (by show ¬ b < 2 ^ 52; omega)]
    have h1 : 1074 ≤ b / 2 ^ double.p - 1 := by
      have : 0x433 ≤ b / 2 ^ double.p := (Nat.le_div_iff_mul_le (Nat.two_pow_pos _)).2 (by show 0x433 * 2 ^ 52 ≤ b; omega)
      omega
    obtain ⟨k, hk⟩ : ∃ k, b / 2 ^ double.p - 1 = k + 1074 := ⟨b / 2 ^ double.p - 1 - 1074, by omega⟩
    rw [hk, Nat.pow_add, ← Nat.mul_assoc]
    exact ⟨_, rfl⟩
  obtain ⟨n, hn⟩ := hu
  refine ⟨n, ?_⟩
  have hm := double.val_mul b
  rw [hn, Rat.natCast_mul] at hm
  have hp := double.one_pos
  have e : double.bias + double.p - 1 = 1074 := rfl
  rw [e] at hm hp
  exact Rat.le_antisymm (Rat.le_of_mul_le_mul_right (by rw [hm]; exact Rat.le_refl) hp) (Rat.le_of_mul_le_mul_right (by rw [hm]; exact Rat.le_refl) hp)

/-- the float64 nearest to an integer is an integer -/
theorem nearest_nat {n b : Nat} (h : Nearest double (n : Rat) b) (hi : b < double.inf) : ∃ m : Nat, double.val b = (m : Rat) := by
  by_cases hn : n ≤ 2 ^ 53
  · obtain ⟨c, hc⟩ := nat_double hn
    have hci : c ≤ double.inf := by
      rw [← val_le_iff, hc]
      have h1 : (n : Rat) ≤ ((2 ^ 53 : Nat) : Rat) := Rat.natCast_le_natCast.2 hn
      have h2 : ((2 ^ 53 : Nat) : Rat) ≤ double.val double.inf := by decide +kernel
      grind
    rw [← hc] at h
    have := nearest_unique h (nearest_self hci)
    subst this
    exact ⟨n, hc⟩
  · apply double_nat
    refine nearest_ge h (by decide) ?_
    have h1 : ((2 ^ 53 : Nat) : Rat) ≤ (n : Rat) := Rat.natCast_le_natCast.2 (by omega)
    have h2 : double.val 0x4330000000000000 ≤ ((2 ^ 53 : Nat) : Rat) := by decide +kernel
    grind

/-- a number that is a float64 is its own nearest one -/
theorem nearest_exact {F : Fmt} {q : Rat} {b : Nat} (h : Nearest F q b) (hi : b < F.inf) : F.val b = q ↔ ∃ c, F.val c = q := by
  constructor
  · exact fun h => ⟨b, h⟩
  · rintro ⟨c, rfl⟩
    by_cases hc : c ≤ F.inf
    · rw [nearest_unique h (nearest_self hc)]
    · have h1 := nearest_ge h (Nat.le_refl F.inf) (F.val_le (by omega))
      omega

/-! ### the float64 of a text -/

theorem floatText_num {E : Env} {O : DigitFn} {w : Bool} {f x : BitVec 64} (h : Shortest O w f) (hc : IntConv E) (hp : E.parseFloat (newFloatText O w f) = some x)
    (hr : ∀ neg ip, JInt neg ip (newFloatText O w f) → -2 ^ 63 ≤ intVal neg ip ∧ intVal neg ip < 2 ^ 64) :
    NumTok E (newFloatText O w f) ∧ (numOf E (newFloatText O w f)).f64 = x := by
  rcases (C60_value O w f h).1 with ⟨neg, ip, hi⟩ | ⟨neg, ip, hfl⟩
  · have hr := hr neg ip hi
    obtain ⟨h1, h2⟩ := jint_num (E := E) hi hr.1 hr.2
    refine ⟨h1, ?_⟩
    have hlt : decVal ip < 2 ^ 64 := by
      unfold intVal at hr
      cases neg <;> simp at hr <;> omega
    have := hc neg ip _ hi hlt
    rw [hp] at this
    rw [h2]
    unfold intNum
    cases neg <;> simp at this ⊢ <;> exact this.symm
  · obtain ⟨neg', ip', h1, h2⟩ := floatText_zeros h neg ip hfl
    obtain ⟨h3, h4⟩ := jfloat_num h1 h2 hp
    exact ⟨h3, by rw [h4]; rfl⟩

theorem floatText_marshal {O : DigitFn} {w : Bool} {f : BitVec 64} (h : Shortest O w f) (hf : finite f = true) (E : Env) (S : SortFn) (d : Opt) (opts : List MOpt) :
    marshal E S d (newFloat E (newFloatText O) w f) opts = .ok (newFloatText O w f, none) := by
  have hne : newFloatText O w f ≠ [] := by
    rcases (C60_value O w f h).1 with ⟨neg, ip, hi⟩ | ⟨neg, ip, fp, ep, h1, -, -, -, h2⟩
    · rw [hi.2]; simp [(intPart_digits hi.1).2.1]
    · rw [h2]; simp [(intPart_digits h1).2.1]
  unfold newFloat newFloat64f
  rw [if_pos (finite_valid hf)]
  exact marshal_num E S d opts _ hne

/-! ### the largest float32 -/

theorem single_max {g : FDigits} (h : Fewest single 0x7F7FFFFF g) : digitsValue false g ≤ 340282350000000000000000000000000000000 := by
  have hdp : g.dp = 39 := fewest_dp h (by decide) (by decide) (by decide +kernel) (by decide +kernel)
  have hn : Nearest single (digitsValue false ⟨asc "34028235", 39⟩) 0x7F7FFFFF := by
    rw [nearest_iff]
    refine ⟨by decide, fun _ => .inl (by decide +kernel), fun c hc => .inl ?_⟩
    obtain rfl : c = 0x7F7FFFFE := by omega
    decide +kernel
  obtain ⟨M, h1, -⟩ := fewest_cand h (digits_of (by decide +kernel)) hn hdp
  obtain ⟨h2, -⟩ := fewest_between h (by decide)
  have e1 : (10 : Rat) ^ ((39 : Int) - (asc "34028235").length) = 10000000000000000000000000000000 := by decide +kernel
  have e2 : single.val 0x7F7FFFFF + single.val (0x7F7FFFFF + 1) < ((34028236 : Nat) : Rat) * 20000000000000000000000000000000 := by decide +kernel
  rw [e1] at h1
  have h4 : M < 34028236 := Rat.natCast_lt_natCast.1 (by grind)
  have h5 : (M : Rat) ≤ ((34028235 : Nat) : Rat) := Rat.natCast_le_natCast.2 (by omega)
  have e3 : ((34028235 : Nat) : Rat) = 34028235 := by decide +kernel
  grind

/-- the fewest digits of a float32, rounded to float64, are not rounded to infinity -/
theorem single_notInf {b d c : Nat} {g : FDigits} (h : Fewest single b g) (hb : b < single.inf) (hd : Nearest double (digitsValue false g) d)
    (hc : Nearest single (double.val d) c) : c ≠ single.inf := by
  have hinf : single.inf = 0x7F800000 := by decide
  have hle : double.val d ≤ 340282350000000000000000000000000000000 + 10000000000000000000000000000 := by
    have e : double.val 0x47efffffe54daff9 ≤ 340282350000000000000000000000000000000 + 10000000000000000000000000000 := by decide +kernel
    have e' : (340282350000000000000000000000000000000 : Rat) ≤ double.val 0x47efffffe54daff9 := by decide +kernel
    have hv : digitsValue false g ≤ 340282350000000000000000000000000000000 := by
      by_cases h1 : b = 0x7F7FFFFF
      · subst h1; exact single_max h
      · have h2 := (fewest_between h hb).1
        have h3 := single.val_le (show b ≤ 0x7F7FFFFE by omega)
        have h4 := single.val_le (show b + 1 ≤ 0x7F7FFFFF by omega)
        have e : single.val 0x7F7FFFFE + single.val 0x7F7FFFFF ≤ 340282350000000000000000000000000000000 * 2 := by decide +kernel
        grind
    have := double.val_le (nearest_le hd (show 0x47efffffe54daff9 ≤ double.inf by decide) (by grind))
    grind
  rintro rfl
  have h1 := (nearest_bounds hc).2 0x7F7FFFFF (by decide)
  have e : (340282350000000000000000000000000000000 + 10000000000000000000000000000) * 2 < single.val 0x7F7FFFFF + single.val single.inf := by decide +kernel
  grind

end JV
