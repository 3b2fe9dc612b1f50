import Verif.Proofs.IeeeText
/-!
Which floats are written as integers outside of the range of int64 and uint64.
-/
namespace JV
open Spec

/-- the text of a float is out of range -/
theorem text_range {O : DigitFn} {w : Bool} {f : BitVec 64} (h : Shortest O w f) :
    (∀ neg ip, JInt neg ip (newFloatText O w f) → -2 ^ 63 ≤ intVal neg ip ∧ intVal neg ip < 2 ^ 64) ↔
      usesE f = true ∨ if f.msb = true then digitsValue false (shortest O w f) ≤ 9223372036854775808 else digitsValue false (shortest O w f) < 18446744073709551616 := by
  have hv := (C60_value O w f h).2
  have hhead := floatText_head h
  have hjint : ∀ neg ip, JInt neg ip (newFloatText O w f) → neg = f.msb ∧ digitsValue false (shortest O w f) = (decVal ip : Rat) := by
    intro neg ip hi
    obtain ⟨h1, -, q, h2, h3⟩ := jint_facts hi
    rw [hhead] at h1
    rw [textValue_unique h2 hv, digitsValue_abs] at h3
    exact ⟨h1.symm, h3⟩
  have c63 : ((2 ^ 63 : Nat) : Rat) = 9223372036854775808 := by decide +kernel
  have c64 : ((2 ^ 64 : Nat) : Rat) = 18446744073709551616 := by decide +kernel
  have hback : ∀ {n : Nat}, digitsValue false (shortest O w f) = (n : Rat) →
      ((if f.msb = true then digitsValue false (shortest O w f) ≤ 9223372036854775808 else digitsValue false (shortest O w f) < 18446744073709551616) ↔
        if f.msb = true then n ≤ 2 ^ 63 else n < 2 ^ 64) := by
    intro n hn
    rw [hn, ← c63, ← c64, Rat.natCast_le_natCast, Rat.natCast_lt_natCast]
  constructor
  · intro hr
    cases hu : usesE f with
    | true => exact .inl rfl
    | false =>
      refine .inr ?_
      have ht := newFloatText_eq h
      rw [hu] at ht
      simp only [Bool.false_eq_true, if_false] at ht
      rcases fmtF_jnum f.msb h.good (max (((shortest O w f).d.length : Int) - (shortest O w f).dp) 0) with ⟨hp, hi⟩ | ⟨hp, -⟩
      · rw [← ht] at hi
        have hv := (hjint _ _ hi).2
        rw [hback hv]
        have := hr _ _ hi
        unfold intVal at this
        cases hm : f.msb with
        | true => rw [hm, if_pos rfl] at this; rw [if_pos rfl]; omega
        | false => rw [hm, if_neg (by decide)] at this; rw [if_neg (by decide)]; omega
      · -- a fraction: less than 10^17
        have hlt : digitsValue false (shortest O w f) < (10 : Rat) ^ (17 : Int) := by
          have hdp : (shortest O w f).dp ≤ 17 := by have := h.few; omega
          by_cases h0 : (shortest O w f).d = []
          · rw [digitsValue_false, h0]
            rw [show decVal [] = 0 from rfl, show ((0 : Nat) : Rat) = 0 from rfl, Rat.zero_mul]
            decide +kernel
          · have h1 := (digitsValue_bounds h.good.1 h.good.2.1 h0).2
            have h2 := ten_mono hdp
            grind
        have e : (10 : Rat) ^ (17 : Int) = 100000000000000000 := by decide +kernel
        split <;> grind
  · intro hc neg ip hi
    obtain ⟨rfl, hv⟩ := hjint _ _ hi
    rcases hc with hu | hc
    · exfalso
      have ht := newFloatText_eq h
      rw [hu] at ht
      simp only [if_true] at ht
      have := fmtE_jfloat f.msb h.good.1 (max (((shortest O w f).d.length : Int) - 1) 0) (fmt := 0x65) (.inl rfl)
      rw [← ht] at this
      exact jint_not_jfloat _ ⟨_, _, hi⟩ ⟨_, _, this⟩
    · rw [hback hv] at hc
      unfold intVal
      cases hm : f.msb with
      | true => rw [hm, if_pos rfl] at hc; rw [if_pos rfl]; omega
      | false => rw [hm, if_neg (by decide)] at hc; rw [if_neg (by decide)]; omega

/-- the digits against others that also do -/
theorem fewest_cand {F : Fmt} {b : Nat} {g : FDigits} {d' : Bytes} {dp : Int} (h : Fewest F b g) (hd' : Digits d') (hn' : Nearest F (digitsValue false ⟨d', dp⟩) b)
    (hdp : g.dp = dp) : ∃ M : Nat, digitsValue false g = (M : Rat) * (10 : Rat) ^ (dp - d'.length) ∧
      (M % 10 = 0 ∨ (digitsValue false g - F.val b).abs ≤ (digitsValue false ⟨d', dp⟩ - F.val b).abs) := by
  have hl := h.fewest ⟨d', dp⟩ hd' hn'
  have hl : g.d.length ≤ d'.length := hl
  refine ⟨decVal g.d * 10 ^ (d'.length - g.d.length), ?_, ?_⟩
  · rw [digitsValue_false, Rat.natCast_mul, ← ten_nat, Rat.mul_assoc, ← ten_add, hdp]
    congr 2
    omega
  · rcases Nat.lt_or_eq_of_le hl with hlt | heq
    · left
      obtain ⟨k, hk⟩ : ∃ k, d'.length - g.d.length = k + 1 := ⟨d'.length - g.d.length - 1, by omega⟩
      rw [hk, Nat.pow_succ, ← Nat.mul_assoc, Nat.mul_mod_left]
    · exact .inr (h.close ⟨d', dp⟩ hd' heq.symm hn')

theorem fewest_dp {F : Fmt} {b : Nat} {g : FDigits} {dp : Int} (h : Fewest F b g) (hb : 0 < b) (hi : b < F.inf)
    (h1 : (10 : Rat) ^ (dp - 1) * 2 ≤ F.val (b - 1) + F.val b) (h2 : F.val b + F.val (b + 1) < (10 : Rat) ^ dp * 2) : g.dp = dp := by
  obtain ⟨a, rfl⟩ : ∃ a, b = a + 1 := ⟨b - 1, by omega⟩
  obtain ⟨h3, h4⟩ := nearest_bounds h.reads
  have h3 := h3 hi
  have h4 := h4 a rfl
  rw [Nat.add_sub_cancel] at h1
  have hne : g.d ≠ [] := fun h0 => absurd ((fewest_ne h).1 h0) (by omega)
  obtain ⟨h5, h6⟩ := digitsValue_bounds h.digits h.lead hne
  have h7 : g.dp - 1 < dp := ten_lt_iff.1 (by grind)
  have h8 : dp - 1 < g.dp := ten_lt_iff.1 (by grind)
  omega

/-- `x` lies between the halves around `b` -/
theorem fewest_between {F : Fmt} {b : Nat} {g : FDigits} (h : Fewest F b g) (hi : b < F.inf) :
    digitsValue false g * 2 ≤ F.val b + F.val (b + 1) ∧ (0 < b → F.val (b - 1) + F.val b ≤ digitsValue false g * 2) := by
  obtain ⟨h3, h4⟩ := nearest_bounds h.reads
  refine ⟨h3 hi, fun hb => ?_⟩
  obtain ⟨a, rfl⟩ : ∃ a, b = a + 1 := ⟨b - 1, by omega⟩
  exact h4 a rfl

theorem digits_asc {s : String} (h : (asc s).all isDigitB = true) : Digits (asc s) := digits_of h

/-- 2^63 and its neighbours as float64 -/
theorem double_63 {g : FDigits} (h : Fewest double 0x43E0000000000000 g) : digitsValue false g = 9223372036854776000 := by
  have hdp : g.dp = 19 := fewest_dp h (by decide) (by decide) (by decide +kernel) (by decide +kernel)
  have hn : Nearest double (digitsValue false ⟨asc "9223372036854776", 19⟩) 0x43E0000000000000 := by
    rw [nearest_iff]
    refine ⟨by decide, fun _ => .inl (by decide +kernel), fun c hc => .inl ?_⟩
    obtain rfl : c = 0x43DFFFFFFFFFFFFF := by omega
    decide +kernel
  obtain ⟨M, h1, -⟩ := fewest_cand h (digits_of (by decide +kernel)) hn hdp
  obtain ⟨h2, h3⟩ := fewest_between h (by decide)
  have h3 := h3 (by decide)
  have e1 : (10 : Rat) ^ ((19 : Int) - (asc "9223372036854776").length) = 1000 := by decide +kernel
  have e2 : double.val 0x43E0000000000000 + double.val (0x43E0000000000000 + 1) < ((9223372036854777 : Nat) : Rat) * 2000 := by decide +kernel
  have e3 : ((9223372036854775 : Nat) : Rat) * 2000 < double.val (0x43E0000000000000 - 1) + double.val 0x43E0000000000000 := by decide +kernel
  rw [e1] at h1
  have h4 : M < 9223372036854777 := Rat.natCast_lt_natCast.1 (by grind)
  have h5 : 9223372036854775 < M := Rat.natCast_lt_natCast.1 (by grind)
  obtain rfl : M = 9223372036854776 := by omega
  rw [h1]
  decide +kernel

/-- 2^64 -/
theorem double_64 {g : FDigits} (h : Fewest double 0x43F0000000000000 g) : digitsValue false g = 18446744073709552000 := by
  have hdp : g.dp = 20 := fewest_dp h (by decide) (by decide) (by decide +kernel) (by decide +kernel)
  have hn : Nearest double (digitsValue false ⟨asc "18446744073709552", 20⟩) 0x43F0000000000000 := by
    rw [nearest_iff]
    refine ⟨by decide, fun _ => .inl (by decide +kernel), fun c hc => .inl ?_⟩
    obtain rfl : c = 0x43EFFFFFFFFFFFFF := by omega
    decide +kernel
  obtain ⟨M, h1, hM⟩ := fewest_cand h (digits_of (by decide +kernel)) hn hdp
  obtain ⟨h2, h3⟩ := fewest_between h (by decide)
  have h3 := h3 (by decide)
  have e1 : (10 : Rat) ^ ((20 : Int) - (asc "18446744073709552").length) = 1000 := by decide +kernel
  have e2 : double.val 0x43F0000000000000 + double.val (0x43F0000000000000 + 1) < ((18446744073709554 : Nat) : Rat) * 2000 := by decide +kernel
  have e3 : ((18446744073709550 : Nat) : Rat) * 2000 < double.val (0x43F0000000000000 - 1) + double.val 0x43F0000000000000 := by decide +kernel
  rw [e1] at h1
  have h4 : M < 18446744073709554 := Rat.natCast_lt_natCast.1 (by grind)
  have h5 : 18446744073709550 < M := Rat.natCast_lt_natCast.1 (by grind)
  have h6 : M = 18446744073709551 ∨ M = 18446744073709552 ∨ M = 18446744073709553 := by omega
  rcases h6 with rfl | rfl | rfl
  · exfalso
    rcases hM with hM | hM
    · omega
    · rw [h1] at hM
      revert hM
      decide +kernel
  · rw [h1]
    decide +kernel
  · exfalso
    rcases hM with hM | hM
    · omega
    · rw [h1] at hM
      revert hM
      decide +kernel

theorem double_range {b : Nat} {g : FDigits} (h : Fewest double b g) (hi : b < double.inf) :
    (digitsValue false g ≤ 9223372036854775808 ↔ b < 0x43E0000000000000) ∧ (digitsValue false g < 18446744073709551616 ↔ b < 0x43F0000000000000) := by
  obtain ⟨h1, h2⟩ := fewest_between h hi
  have key : ∀ (c : Nat) (lim : Rat), (double.val (c - 1) + double.val c < lim * 2) → (lim * 2 < double.val c + double.val (c + 1)) →
      (b < c → digitsValue false g < lim) ∧ (c < b → lim < digitsValue false g) := by
    intro c lim e1 e2
    constructor
    · intro hlt
      have h3 := double.val_le (show b ≤ c - 1 by omega)
      have h4 := double.val_le (show b + 1 ≤ c by omega)
      grind
    · intro hlt
      have h2 := h2 (by omega)
      have h3 := double.val_le (show c ≤ b - 1 by omega)
      have h4 := double.val_le (show c + 1 ≤ b by omega)
      grind
  have k63 := key 0x43E0000000000000 9223372036854775808 (by decide +kernel) (by decide +kernel)
  have k64 := key 0x43F0000000000000 18446744073709551616 (by decide +kernel) (by decide +kernel)
  constructor
  · constructor
    · intro hle
      apply Nat.lt_of_not_le
      intro hge
      rcases Nat.lt_or_eq_of_le hge with hlt | rfl
      · have := k63.2 hlt
        grind
      · rw [double_63 h] at hle
        revert hle
        decide +kernel
    · intro hlt
      exact Rat.le_of_lt (k63.1 hlt)
  · constructor
    · intro hle
      apply Nat.lt_of_not_le
      intro hge
      rcases Nat.lt_or_eq_of_le hge with hlt | rfl
      · have := k64.2 hlt
        grind
      · rw [double_64 h] at hle
        revert hle
        decide +kernel
    · intro hlt
      exact k64.1 hlt

/-- the same for float32 -/
theorem single_63 {g : FDigits} (h : Fewest single 0x5F000000 g) : digitsValue false g = 9223372000000000000 := by
  have hdp : g.dp = 19 := fewest_dp h (by decide) (by decide) (by decide +kernel) (by decide +kernel)
  have hn : Nearest single (digitsValue false ⟨asc "9223372", 19⟩) 0x5F000000 := by
    rw [nearest_iff]
    refine ⟨by decide, fun _ => .inl (by decide +kernel), fun c hc => .inl ?_⟩
    obtain rfl : c = 0x5EFFFFFF := by omega
    decide +kernel
  obtain ⟨M, h1, -⟩ := fewest_cand h (digits_of (by decide +kernel)) hn hdp
  obtain ⟨h2, h3⟩ := fewest_between h (by decide)
  have h3 := h3 (by decide)
  have e1 : (10 : Rat) ^ ((19 : Int) - (asc "9223372").length) = 1000000000000 := by decide +kernel
  have e2 : single.val 0x5F000000 + single.val (0x5F000000 + 1) < ((9223373 : Nat) : Rat) * 2000000000000 := by decide +kernel
  have e3 : ((9223371 : Nat) : Rat) * 2000000000000 < single.val (0x5F000000 - 1) + single.val 0x5F000000 := by decide +kernel
  rw [e1] at h1
  have h4 : M < 9223373 := Rat.natCast_lt_natCast.1 (by grind)
  have h5 : 9223371 < M := Rat.natCast_lt_natCast.1 (by grind)
  obtain rfl : M = 9223372 := by omega
  rw [h1]
  decide +kernel

theorem single_64 {g : FDigits} (h : Fewest single 0x5F800000 g) : digitsValue false g = 18446744000000000000 := by
  have hdp : g.dp = 20 := fewest_dp h (by decide) (by decide) (by decide +kernel) (by decide +kernel)
  have hn : Nearest single (digitsValue false ⟨asc "18446744", 20⟩) 0x5F800000 := by
    rw [nearest_iff]
    refine ⟨by decide, fun _ => .inl (by decide +kernel), fun c hc => .inl ?_⟩
    obtain rfl : c = 0x5F7FFFFF := by omega
    decide +kernel
  obtain ⟨M, h1, hM⟩ := fewest_cand h (digits_of (by decide +kernel)) hn hdp
  obtain ⟨h2, h3⟩ := fewest_between h (by decide)
  have h3 := h3 (by decide)
  have e1 : (10 : Rat) ^ ((20 : Int) - (asc "18446744").length) = 1000000000000 := by decide +kernel
  have e2 : single.val 0x5F800000 + single.val (0x5F800000 + 1) < ((18446746 : Nat) : Rat) * 2000000000000 := by decide +kernel
  have e3 : ((18446743 : Nat) : Rat) * 2000000000000 < single.val (0x5F800000 - 1) + single.val 0x5F800000 := by decide +kernel
  rw [e1] at h1
  have h4 : M < 18446746 := Rat.natCast_lt_natCast.1 (by grind)
  have h5 : 18446743 < M := Rat.natCast_lt_natCast.1 (by grind)
  have h6 : M = 18446744 ∨ M = 18446745 := by omega
  rcases h6 with rfl | rfl
  · rw [h1]
    decide +kernel
  · exfalso
    rcases hM with hM | hM
    · omega
    · rw [h1] at hM
      revert hM
      decide +kernel

theorem single_range {b : Nat} {g : FDigits} (h : Fewest single b g) (hi : b < single.inf) :
    (digitsValue false g ≤ 9223372036854775808 ↔ b ≤ 0x5F000000) ∧ (digitsValue false g < 18446744073709551616 ↔ b ≤ 0x5F800000) := by
  obtain ⟨h1, h2⟩ := fewest_between h hi
  have key : ∀ (c : Nat) (lim : Rat), (single.val (c - 1) + single.val c < lim * 2) → (lim * 2 < single.val c + single.val (c + 1)) →
      (b < c → digitsValue false g < lim) ∧ (c < b → lim < digitsValue false g) := by
    intro c lim e1 e2
    constructor
    · intro hlt
      have h3 := single.val_le (show b ≤ c - 1 by omega)
      have h4 := single.val_le (show b + 1 ≤ c by omega)
      grind
    · intro hlt
      have h2 := h2 (by omega)
      have h3 := single.val_le (show c ≤ b - 1 by omega)
      have h4 := single.val_le (show c + 1 ≤ b by omega)
      grind
  have k63 := key 0x5F000000 9223372036854775808 (by decide +kernel) (by decide +kernel)
  have k64 := key 0x5F800000 18446744073709551616 (by decide +kernel) (by decide +kernel)
  constructor
  · constructor
    · intro hle
      apply Nat.le_of_not_lt
      intro hlt
      have := k63.2 hlt
      grind
    · intro hle
      rcases Nat.lt_or_eq_of_le hle with hlt | rfl
      · exact Rat.le_of_lt (k63.1 hlt)
      · rw [single_63 h]; decide +kernel
  · constructor
    · intro hle
      apply Nat.le_of_not_lt
      intro hlt
      have := k64.2 hlt
      grind
    · intro hle
      rcases Nat.lt_or_eq_of_le hle with hlt | rfl
      · exact k64.1 hlt
      · rw [single_64 h]; decide +kernel

end JV
