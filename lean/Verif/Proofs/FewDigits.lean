import Verif.Proofs.IeeeDigits
/-!
Decimal numbers with few digits: no two of them round to the same floating point number.
-/
namespace JV
open Spec

/-- a step is at most the `2 ^ p`th part of a normal number: the step that leads to it, and the one that leads away from it -/
theorem _root_.Spec.Fmt.units_gap_le (F : Fmt) (b : Nat) (h : 2 ^ F.p ≤ b + 1) : 2 ^ F.p * (F.units (b + 1) - F.units b) ≤ F.units (b + 1) ∧
    (2 ^ F.p ≤ b → 2 ^ F.p * (F.units (b + 1) - F.units b) ≤ F.units b) := by
  have hp : 0 < 2 ^ F.p := Nat.two_pow_pos _
  unfold Fmt.units
  generalize 2 ^ F.p = P at *
  by_cases h2 : b < P
  · have h3 : b + 1 = P := by omega
    have h5 : (b + 1) % P = 0 := by rw [h3, Nat.mod_self]
    have h6 : (b + 1) / P = 1 := by rw [h3]; exact Nat.div_self hp
    rw [if_pos h2, if_neg (by omega), h5, h6]
    simp only [Nat.add_zero, Nat.sub_self, Nat.pow_zero, Nat.mul_one]
    rw [show P - b = 1 by omega]
    exact ⟨by omega, fun h => by omega⟩
  rw [if_neg (by omega), if_neg h2]
  have h0 : 1 ≤ b / P := (Nat.le_div_iff_mul_le hp).2 (by omega)
  have hm := Nat.mod_lt b hp
  by_cases h3 : b % P + 1 < P
  · have h4 : (b + 1) / P = b / P ∧ (b + 1) % P = b % P + 1 := by
      rw [Nat.div_mod_unique hp]
      have := Nat.div_add_mod b P
      omega
    rw [h4.1, h4.2, ← Nat.sub_mul, show P + (b % P + 1) - (P + b % P) = 1 by omega, Nat.one_mul]
    exact ⟨Nat.mul_le_mul_right _ (by omega), fun _ => Nat.mul_le_mul_right _ (by omega)⟩
  · have h4 : (b + 1) / P = b / P + 1 ∧ (b + 1) % P = 0 := by
      rw [Nat.div_mod_unique hp]
      have := Nat.div_add_mod b P
      rw [Nat.mul_add]
      omega
    rw [h4.1, h4.2]
    obtain ⟨k, hk⟩ : ∃ k, b / P = k + 1 := ⟨b / P - 1, by omega⟩
    rw [hk]
    simp only [Nat.add_sub_cancel, Nat.add_zero]
    rw [Nat.pow_succ, Nat.mul_comm (2 ^ k) 2, ← Nat.mul_assoc, ← Nat.sub_mul, show P * 2 - (P + b % P) = 1 by omega, Nat.one_mul]
    exact ⟨Nat.mul_le_mul_right _ (by omega), fun _ => Nat.mul_le_mul_right _ (by omega)⟩

theorem _root_.Spec.Fmt.val_gap_le (F : Fmt) (b : Nat) (h : 2 ^ F.p ≤ b + 1) : ((2 ^ F.p : Nat) : Rat) * (F.val (b + 1) - F.val b) ≤ F.val (b + 1) ∧
    (2 ^ F.p ≤ b → ((2 ^ F.p : Nat) : Rat) * (F.val (b + 1) - F.val b) ≤ F.val b) := by
  have h' := F.units_gap_le b h
  have hlt := F.units_lt b
  obtain ⟨d, hd⟩ : ∃ d, F.units (b + 1) = F.units b + d := ⟨F.units (b + 1) - F.units b, by omega⟩
  rw [show F.units (b + 1) - F.units b = d by omega] at h'
  have e : (F.units (b + 1) : Rat) - (F.units b : Rat) = (d : Rat) := by rw [hd, Rat.natCast_add]; grind
  have key : ∀ c, 2 ^ F.p * d ≤ F.units c → ((2 ^ F.p : Nat) : Rat) * (F.val (b + 1) - F.val b) ≤ F.val c := by
    intro c hc
    have h2 := Rat.natCast_le_natCast.2 hc
    rw [Rat.natCast_mul, ← e] at h2
    refine Rat.le_of_mul_le_mul_right (c := ((2 ^ (F.bias + F.p - 1) : Nat) : Rat)) ?_ F.one_pos
    rw [F.val_mul]
    have h3 := F.val_mul b
    have h4 := F.val_mul (b + 1)
    generalize ((2 ^ F.p : Nat) : Rat) = P at *
    generalize ((2 ^ (F.bias + F.p - 1) : Nat) : Rat) = Q at *
    rw [← h3, ← h4] at h2
    grind
  exact ⟨key _ h'.1, fun hb => key _ (h'.2 hb)⟩

/-- Two decimal numbers with `N` digits, `10 ^ N < 2 ^ p`, that round to the same normal number are the same. -/
theorem decimal_unique {F : Fmt} {N b m n : Nat} {a c : Int} (hN : 10 ^ N < 2 ^ F.p) (hb : 2 ^ F.p ≤ b) (hi : b < F.inf) (hm : m < 10 ^ N) (hn : n < 10 ^ N)
    (h1 : Nearest F ((m : Rat) * (10 : Rat) ^ a) b) (h2 : Nearest F ((n : Rat) * (10 : Rat) ^ c) b) : (m : Rat) * (10 : Rat) ^ a = (n : Rat) * (10 : Rat) ^ c := by
  have key : ∀ {m n : Nat} {a c : Int}, m < 10 ^ N → a ≤ c → Nearest F ((m : Rat) * (10 : Rat) ^ a) b → Nearest F ((n : Rat) * (10 : Rat) ^ c) b →
      (m : Rat) * (10 : Rat) ^ a = (n : Rat) * (10 : Rat) ^ c := by
    intro m n a c hm hac h1 h2
    -- the second one counts units of the first one, too
    obtain ⟨k, hk⟩ : ∃ k : Nat, c = k + a := ⟨(c - a).toNat, by omega⟩
    have hy : (n : Rat) * (10 : Rat) ^ c = ((n * 10 ^ k : Nat) : Rat) * (10 : Rat) ^ a := by
      rw [hk, ten_add, ten_nat, Rat.natCast_mul]; grind
    rw [hy] at h2 ⊢
    generalize n * 10 ^ k = M at h2 ⊢
    by_cases hne : m = M
    · rw [hne]
    exfalso
    obtain ⟨b', rfl⟩ : ∃ b', b = b' + 1 := ⟨b - 1, by have := Nat.two_pow_pos F.p; omega⟩
    have hs := ten_pos a
    have x1 := (nearest_bounds h1).1 hi
    have x2 := (nearest_bounds h1).2 b' rfl
    have y1 := (nearest_bounds h2).1 hi
    have y2 := (nearest_bounds h2).2 b' rfl
    have g1 := (F.val_gap_le b' (by omega)).1
    have g2 := (F.val_gap_le (b' + 1) (by omega)).2 hb
    have l1 := F.val_succ b'
    have l2 := F.val_succ (b' + 1)
    generalize F.val (b' + 1 + 1) = V2 at *
    generalize F.val (b' + 1) = V1 at *
    generalize F.val b' = V0 at *
    have hP : ((10 ^ N : Nat) : Rat) + 1 ≤ ((2 ^ F.p : Nat) : Rat) := by
      have := Rat.natCast_le_natCast.2 (show 10 ^ N + 1 ≤ 2 ^ F.p by omega)
      rw [Rat.natCast_add] at this
      exact this
    have hm' : (m : Rat) + 1 ≤ ((10 ^ N : Nat) : Rat) := by
      have := Rat.natCast_le_natCast.2 (show m + 1 ≤ 10 ^ N by omega)
      rw [Rat.natCast_add] at this
      exact this
    generalize ((2 ^ F.p : Nat) : Rat) = P at *
    generalize ((10 ^ N : Nat) : Rat) = D at *
    -- at least one unit apart
    have hd : (10 : Rat) ^ a * 2 ≤ V2 - V0 := by
      rcases Nat.lt_or_gt_of_ne hne with h | h
      · have : (m : Rat) + 1 ≤ (M : Rat) := by
          have := Rat.natCast_le_natCast.2 (show m + 1 ≤ M by omega)
          rw [Rat.natCast_add] at this
          exact this
        have := Rat.mul_le_mul_of_nonneg_right this (Rat.le_of_lt hs)
        grind
      · have : (M : Rat) + 1 ≤ (m : Rat) := by
          have := Rat.natCast_le_natCast.2 (show M + 1 ≤ m by omega)
          rw [Rat.natCast_add] at this
          exact this
        have := Rat.mul_le_mul_of_nonneg_right this (Rat.le_of_lt hs)
        grind
    generalize (10 : Rat) ^ a = s at *
    have z1 : ((m : Rat) + 1) * s ≤ D * s := Rat.mul_le_mul_of_nonneg_right hm' (Rat.le_of_lt hs)
    have hH : 0 ≤ V2 - V0 := by grind
    have hD0 : 0 ≤ D := by
      have : (0 : Rat) ≤ (m : Rat) := Rat.natCast_nonneg
      grind
    have z2 : D * (s * 2) ≤ D * (V2 - V0) := Rat.mul_le_mul_of_nonneg_left hd hD0
    have z3 : (D + 1) * (V2 - V0) ≤ P * (V2 - V0) := Rat.mul_le_mul_of_nonneg_right hP hH
    grind
  rcases Int.le_total a c with h | h
  · exact key hm h h1 h2
  · exact (key hn h h2 h1).symm

/-- The fewest digits of the number that a decimal number with `N` digits is rounded to are those of the decimal number. -/
theorem fewest_few_digits {F : Fmt} {N b m : Nat} {a : Int} {g : FDigits} (h : Fewest F b g) (hN : 10 ^ N < 2 ^ F.p) (hi : b < F.inf) (hm : m < 10 ^ N)
    (hq : m = 0 ∨ F.val (2 ^ F.p) ≤ (m : Rat) * (10 : Rat) ^ a) (hn : Nearest F ((m : Rat) * (10 : Rat) ^ a) b) :
    digitsValue false g = (m : Rat) * (10 : Rat) ^ a := by
  by_cases h0 : m = 0
  · subst h0
    rw [show ((0 : Nat) : Rat) = 0 from rfl, Rat.zero_mul] at hn ⊢
    have : b = 0 := Nat.le_zero.1 (nearest_le hn (Nat.zero_le _) (by rw [F.val_zero]; exact Rat.le_refl))
    rw [h.zero this]
    unfold digitsValue
    rw [show decVal ([] : Bytes) = 0 from rfl, show ((0 : Nat) : Rat) = 0 from rfl]
    simp only [Rat.mul_zero, Rat.zero_mul]
  have hq := hq.resolve_left h0
  obtain ⟨g', h1, -, -, h2, h3⟩ := digits_of_nat a (Nat.pos_of_ne_zero h0) hm
  have h4 := h.fewest g' h1 (by rw [h3]; exact hn)
  have h5 := decVal_le _ h.digits
  have hb : 2 ^ F.p ≤ b := by
    by_cases hp : 2 ^ F.p ≤ F.inf
    · exact nearest_ge hn hp hq
    · exfalso
      have e : F.inf = 2 * F.bias * 2 ^ F.p + 2 ^ F.p := by unfold Fmt.inf; rw [Nat.add_mul, Nat.one_mul]
      omega
  have e : digitsValue false g = (decVal g.d : Rat) * (10 : Rat) ^ (g.dp - g.d.length) := by
    unfold digitsValue
    rw [if_neg (by decide), Rat.one_mul]
  have h6 := h.reads
  rw [e] at h6 ⊢
  refine (decimal_unique hN hb hi hm ?_ hn h6).symm
  exact Nat.lt_of_lt_of_le h5 (Nat.pow_le_pow_right (by omega) (by omega))

end JV
