import Verif.Proofs.IeeeDigits
import Verif.Spec.GoJson
/-!
The facts about the fewest digits that FloatFmt assumes.
-/
namespace JV
open Spec

theorem fltNonzero_iff (f : BitVec 64) : fltNonzero f = false ↔ magnitude f = 0 := by
  unfold fltNonzero magnitude
  have hlt := f.isLt
  constructor
  · intro h
    simp only [Bool.and_eq_false_iff, bne_eq_false_iff_eq] at h
    rcases h with rfl | rfl <;> decide
  · intro h
    simp only [Bool.and_eq_false_iff, bne_eq_false_iff_eq]
    have : f.toNat = 0 ∨ f.toNat = 2 ^ 63 := by omega
    rcases this with h | h
    · exact .inl (BitVec.eq_of_toNat_eq h)
    · exact .inr (BitVec.eq_of_toNat_eq h)

theorem finite_iff (f : BitVec 64) : finite f = true ↔ magnitude f < double.inf := by
  have hand : (f &&& 0x7FF0000000000000#64).toNat = f.toNat % 2 ^ 63 / 2 ^ 52 * 2 ^ 52 := by
    rw [BitVec.toNat_and]
    apply Nat.eq_of_testBit_eq
    intro i
    rw [Nat.testBit_and]
    have e : (0x7FF0000000000000#64).toNat = (2 ^ 11 - 1) * 2 ^ 52 := by decide
    rw [e, Nat.testBit_mul_two_pow, Nat.testBit_mul_two_pow, Nat.testBit_two_pow_sub_one, Nat.testBit_div_two_pow, Nat.testBit_mod_two_pow]
    by_cases h1 : 52 ≤ i
    · by_cases h2 : i - 52 < 11
      · simp [h1, h2]
        intro _
        omega
      · simp [h1, h2]
        intro h
        omega
    · simp [h1]
  have hi : double.inf = 2047 * 2 ^ 52 := by decide
  have hlt : magnitude f < 2 ^ 63 := Nat.mod_lt _ (by decide)
  unfold finite
  rw [decide_eq_true_iff]
  rw [hi]
  constructor
  · intro h
    apply Nat.lt_of_not_le
    intro hle
    apply h
    apply BitVec.eq_of_toNat_eq
    rw [hand]
    unfold magnitude at *
    have : f.toNat % 2 ^ 63 / 2 ^ 52 = 2047 := by omega
    rw [this]
    decide
  · intro h he
    have h1 := congrArg BitVec.toNat he
    rw [hand] at h1
    have e : (0x7FF0000000000000#64).toNat = 2047 * 2 ^ 52 := by decide
    rw [e] at h1
    unfold magnitude at h
    omega

/-- The digits of a float64. -/
theorem shortest_double {O : DigitFn} (h : GoDigits O) {f : BitVec 64} (hf : magnitude f < double.inf) : Shortest O false f := by
  have hF := h.double f hf
  have hz : (shortest O false f).d = [] ↔ fltNonzero f = false := by rw [fltNonzero_iff, fewest_ne hF]
  refine ⟨h.same false f, ⟨hF.digits, hF.lead, ?_, ?_⟩, fewest_few (N := 16) hF (by decide) hf, ⟨hz, fun hne => ?_, fun hne hm => ?_, fun hne hm => ?_⟩⟩
  · intro h0
    rw [hF.zero ((fewest_ne hF).1 h0)]
    exact Int.le_refl _
  · by_cases hne : (shortest O false f).d = []
    · rw [hF.zero ((fewest_ne hF).1 hne)]
      exact ⟨by decide, by decide⟩
    · have := fewest_size (lo := -324) (hi := 309) hF hne (by decide +kernel) (by decide +kernel) hf
      omega
  · exact fewest_power hF hne power_1e21.1 power_1e21.2
  · exact (fewest_power hF hne power_1em6.1 power_1em6.2).2 hm
  · have := (not_congr (fewest_power hF hne power_1em6.1 power_1em6.2)).2 (by omega)
    simp only [Bool.false_eq_true, if_false]
    omega

theorem val_le_iff {F : Fmt} {a b : Nat} : F.val a ≤ F.val b ↔ a ≤ b := by
  constructor
  · intro h
    apply Nat.le_of_not_lt
    intro hlt
    exact Rat.not_lt.2 h (F.val_lt hlt)
  · exact F.val_le

theorem power32_1e21 : Nearest single ((10 : Rat) ^ (21 : Int)) 0x6258D727 ∧ ¬ Nearest single (9 * (10 : Rat) ^ ((21 : Int) - 1)) 0x6258D727 := by
  constructor
  · rw [nearest_iff]
    refine ⟨by decide, fun _ => .inl (by decide +kernel), fun c hc => .inl ?_⟩
    obtain rfl : c = 0x6258D726 := by omega
    decide +kernel
  · exact nine_not (by decide) (by decide) (by decide +kernel)

theorem power32_1em6 : Nearest single ((10 : Rat) ^ (-6 : Int)) 0x358637BD ∧ ¬ Nearest single (9 * (10 : Rat) ^ ((-6 : Int) - 1)) 0x358637BD := by
  constructor
  · rw [nearest_iff]
    refine ⟨by decide, fun _ => .inl (by decide +kernel), fun c hc => .inl ?_⟩
    obtain rfl : c = 0x358637BC := by omega
    decide +kernel
  · exact nine_not (by decide) (by decide) (by decide +kernel)

theorem power32_1em5 : Nearest single ((10 : Rat) ^ (-5 : Int)) 0x3727C5AC ∧ ¬ Nearest single (9 * (10 : Rat) ^ ((-5 : Int) - 1)) 0x3727C5AC := by
  constructor
  · rw [nearest_iff]
    refine ⟨by decide, fun _ => .inl (by decide +kernel), fun c hc => .inl ?_⟩
    obtain rfl : c = 0x3727C5AB := by omega
    decide +kernel
  · exact nine_not (by decide) (by decide) (by decide +kernel)

/-- The digits of a float32. -/
theorem shortest_single {O : DigitFn} (h : GoDigits O) {f : BitVec 64} {b : Nat} (hf : magnitude f < double.inf) (hb : b < single.inf)
    (he : double.val (magnitude f) = single.val b) : Shortest O true f := by
  have hF := h.single f b hf hb he
  have h0 : magnitude f = 0 ↔ b = 0 := by
    constructor
    · intro h0
      rw [h0, Fmt.val_zero] at he
      have := val_le_iff (F := single) (a := b) (b := 0)
      rw [← he, Fmt.val_zero] at this
      have := this.1 Rat.le_refl
      omega
    · intro h0
      rw [h0, Fmt.val_zero] at he
      have := val_le_iff (F := double) (a := magnitude f) (b := 0)
      rw [he, Fmt.val_zero] at this
      have := this.1 Rat.le_refl
      omega
  have hz : (shortest O true f).d = [] ↔ fltNonzero f = false := by rw [fltNonzero_iff, fewest_ne hF, h0]
  refine ⟨h.same true f, ⟨hF.digits, hF.lead, ?_, ?_⟩, Nat.le_trans (fewest_few (N := 8) hF (by decide) hb) (by decide), ⟨hz, fun hne => ?_, fun hne hm => ?_, fun hne hm => ?_⟩⟩
  · intro h0
    rw [hF.zero ((fewest_ne hF).1 h0)]
    exact Int.le_refl _
  · by_cases hne : (shortest O true f).d = []
    · rw [hF.zero ((fewest_ne hF).1 hne)]
      exact ⟨by decide, by decide⟩
    · have := fewest_size (lo := -46) (hi := 39) hF hne (by decide +kernel) (by decide +kernel) hb
      omega
  · have h1 := fewest_power hF hne power32_1e21.1 power32_1e21.2
    rw [show (22 : Int) = 21 + 1 from rfl, h1, ← val_le_iff (F := double) (b := magnitude f), he]
    have e1 : double.val 0x444B1AE4D6E2EF50 ≤ single.val 0x6258D727 := by decide +kernel
    have e2 : single.val 0x6258D726 < double.val 0x444B1AE4D6E2EF50 := by decide +kernel
    constructor
    · intro hle
      have := single.val_le hle
      grind
    · intro hle
      apply Nat.le_of_not_lt
      intro hlt
      have := single.val_le (show b ≤ 0x6258D726 by omega)
      grind
  · refine (fewest_power hF hne power32_1em6.1 power32_1em6.2).2 ?_
    rw [← val_le_iff (F := double), he] at hm
    have e1 : single.val 0x358637BD < double.val 0x3EB0C6F7A0B5ED8D := by decide +kernel
    rw [← val_le_iff (F := single)]
    grind
  · have h1 := fewest_power hF hne power32_1em5.1 power32_1em5.2
    simp only [if_true]
    apply Int.not_lt.1
    intro hlt
    have h2 := h1.1 (by omega)
    have h3 := single.val_le h2
    rw [← he] at h3
    have h4 := double.val_lt hm
    have e1 : double.val 0x3EB0C6F7A0B5ED8D < single.val 0x3727C5AC := by decide +kernel
    grind

end JV
