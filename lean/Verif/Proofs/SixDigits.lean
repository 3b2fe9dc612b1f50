import Verif.Proofs.FewDigits
import Verif.Proofs.IeeeText
/-!
Decimal numbers with six digits never lie so close to the middle of two float32 numbers that rounding to float64 makes them that middle. For all the powers of ten and of two
in question, continued fractions say how close they come.
-/
namespace JV
open Spec

/-- how many numbers have six digits -/
def million : Nat := 1000000

/-- Two fractions `p / q` and `p' / q'` next to each other with `A / B` between them. No `N / m` with an odd `N` between 2^24 and 2^25 and `m` below a million comes close to `A / B`. -/
structure Cert (A B p q p' q' : Nat) : Prop where
  next : p * q' = p' * q + 1 ∨ p' * q = p * q' + 1
  between : p * B ≤ q * A ∧ q' * A ≤ p' * B ∨ q * A ≤ p * B ∧ p' * B ≤ q' * A
  pos : 0 < q
  big : million ≤ q'
  first : p % 2 = 0 ∨ 2 ^ 25 ≤ p ∨ q * A = p * B ∨ p * B < 2 ^ 53 * (q * A - p * B) ∨ p * B < 2 ^ 53 * (p * B - q * A)
  others : B < 2 ^ 28 * (q' * A - p' * B) ∨ B < 2 ^ 28 * (p' * B - q' * A) ∨ B * q < (q' - million) * (q * A - p * B) * 2 ^ 28 ∨ B * q < (q' - million) * (p * B - q * A) * 2 ^ 28

instance (A B p q p' q' : Nat) : Decidable (Cert A B p q p' q') :=
  decidable_of_iff (_ ∧ _ ∧ _ ∧ _ ∧ _ ∧ _) ⟨fun ⟨a, b, c, d, e, f⟩ => ⟨a, b, c, d, e, f⟩, fun ⟨a, b, c, d, e, f⟩ => ⟨a, b, c, d, e, f⟩⟩

theorem combine {x y d d' q q' m M B : Int} (hm : m = x * q + y * q') (h0 : 0 < m) (hM : m < M) (hq : 0 < q) (hq' : M ≤ q') (hd : 0 ≤ d) (hd' : 0 ≤ d')
    (h1 : (x * d - y * d') * 2 ^ 28 ≤ B) (h2 : (y * d' - x * d) * 2 ^ 28 ≤ B) (hc : B < 2 ^ 28 * d' ∨ B * q < (q' - M) * d * 2 ^ 28) : y = 0 := by
  apply Classical.byContradiction
  intro hy
  have key : ∀ X Y : Int, 0 ≤ X → 1 ≤ Y → q' - M ≤ X * q → (X * d + Y * d') * 2 ^ 28 ≤ B → False := by
    intro X Y hX hY hXq hB
    have e1 : 0 ≤ X * d := Int.mul_nonneg hX hd
    have e2 : d' ≤ Y * d' := by
      have := Int.mul_le_mul_of_nonneg_right hY hd'
      omega
    rcases hc with hc | hc
    · omega
    · have e3 : (q' - M) * d ≤ X * q * d := Int.mul_le_mul_of_nonneg_right hXq hd
      have e4 : X * d * 2 ^ 28 ≤ B := by omega
      have e5 := Int.mul_le_mul_of_nonneg_right e4 (Int.le_of_lt hq)
      have e6 : X * d * 2 ^ 28 * q = X * q * d * 2 ^ 28 := by grind
      omega
  rcases Int.lt_or_gt_of_ne hy with hy | hy
  · have hx : 0 < x := by
      apply Int.not_le.1
      intro hx
      have e1 : x * q ≤ 0 := Int.mul_nonpos_of_nonpos_of_nonneg hx (Int.le_of_lt hq)
      have e2 : y * q' ≤ 0 := Int.mul_nonpos_of_nonpos_of_nonneg (by omega) (by omega)
      omega
    refine key x (-y) (by omega) (by omega) ?_ ?_
    · have e2 : y * q' ≤ (-1) * q' := Int.mul_le_mul_of_nonneg_right (by omega) (by omega)
      omega
    · rw [Int.neg_mul]; exact h1
  · have e2 : 1 * q' ≤ y * q' := Int.mul_le_mul_of_nonneg_right (by omega) (by omega)
    have hx : x < 0 := by
      apply Int.not_le.1
      intro hx
      have e1 : 0 ≤ x * q := Int.mul_nonneg hx (Int.le_of_lt hq)
      omega
    refine key (-x) y (by omega) (by omega) ?_ ?_
    · rw [Int.neg_mul]; omega
    · rw [Int.neg_mul]
      have : -(x * d) + y * d' = y * d' - x * d := by omega
      rw [this]
      exact h2

/-- the same with the distances `d` and `d'` of the two fractions -/
theorem cert_main {A B p q p' q' d d' : Nat} (hn : p * q' = p' * q + 1 ∨ p' * q = p * q' + 1) (hb : q * A = p * B + d ∧ p' * B = q' * A + d' ∨ p * B = q * A + d ∧ q' * A = p' * B + d')
    (hq : 0 < q) (hq' : million ≤ q') (h1 : p % 2 = 0 ∨ 2 ^ 25 ≤ p ∨ d = 0 ∨ p * B < 2 ^ 53 * d) (h2 : B < 2 ^ 28 * d' ∨ B * q < (q' - million) * d * 2 ^ 28)
    {m N : Nat} (h0 : 0 < m) (hm : m < million) (hodd : N % 2 = 1) (hN : N < 2 ^ 25)
    (h3 : 2 ^ 53 * (m * A - N * B) ≤ N * B) (h4 : 2 ^ 53 * (N * B - m * A) ≤ N * B) : m * A = N * B := by
  obtain ⟨x, y, hx, hy⟩ : ∃ x y : Int, (m : Int) = x * q + y * q' ∧ (N : Int) = x * p + y * p' := by
    rcases hn with hn | hn
    · have hn : (p : Int) * q' = p' * q + 1 := by exact_mod_cast hn
      exact ⟨N * q' - m * p', p * m - q * N, by grind, by grind⟩
    · have hn : (p' : Int) * q = p * q' + 1 := by exact_mod_cast hn
      exact ⟨m * p' - N * q', q * N - p * m, by grind, by grind⟩
  have hNB : N * B ≤ 2 ^ 25 * B := Nat.mul_le_mul_right _ (by omega)
  have hT : (x * d - y * d' = (m : Int) * A - N * B) ∨ (x * d - y * d' = (N : Int) * B - m * A) := by
    rcases hb with ⟨e1, e2⟩ | ⟨e1, e2⟩
    · have e1 : (q : Int) * A = p * B + d := by exact_mod_cast e1
      have e2 : (p' : Int) * B = q' * A + d' := by exact_mod_cast e2
      left
      rw [hx, hy]
      grind
    · have e1 : (p : Int) * B = q * A + d := by exact_mod_cast e1
      have e2 : (q' : Int) * A = p' * B + d' := by exact_mod_cast e2
      right
      rw [hx, hy]
      grind
  have hmA : ((m * A : Nat) : Int) = (m : Int) * A := Int.natCast_mul _ _
  have hNB' : ((N * B : Nat) : Int) = (N : Int) * B := Int.natCast_mul _ _
  generalize m * A = mA at *
  generalize N * B = nB at *
  have hy0 : y = 0 := by
    refine combine (d := d) (d' := d') (M := million) (B := B) hx (by omega) (by omega) (by omega) (by omega) (by omega) (by omega) (by omega) (by omega) ?_
    rcases h2 with h2 | h2
    · left; exact_mod_cast h2
    · right
      have e : ((q' : Int) - (million : Int)) = ((q' - million : Nat) : Int) := by omega
      rw [e]
      exact_mod_cast h2
  subst hy0
  have hxp : 0 < x := by
    apply Int.not_le.1
    intro hx0
    have := Int.mul_nonpos_of_nonpos_of_nonneg hx0 (show (0 : Int) ≤ q by omega)
    omega
  have hx' : (N : Int) = x * p := by omega
  rw [Int.zero_mul, Int.sub_zero] at hT
  rcases h1 with h1 | h1 | h1 | h1
  · exfalso
    obtain ⟨k, rfl⟩ : ∃ k, p = 2 * k := ⟨p / 2, by omega⟩
    have : (N : Int) = 2 * (x * k) := by rw [hx']; push_cast; grind
    omega
  · exfalso
    have := Int.mul_le_mul_of_nonneg_right (show (1 : Int) ≤ x by omega) (show (0 : Int) ≤ p by omega)
    omega
  · subst h1
    rw [show x * ((0 : Nat) : Int) = 0 by simp] at hT
    omega
  · exfalso
    have h1 : (p : Int) * B + 1 ≤ 2 ^ 53 * d := by exact_mod_cast h1
    have e := Int.mul_le_mul_of_nonneg_left h1 (Int.le_of_lt hxp)
    have e1 : x * ((p : Int) * B + 1) = nB + x := by rw [hNB', hx']; grind
    have e2 : x * (2 ^ 53 * (d : Int)) = 2 ^ 53 * (x * d) := by grind
    rw [e1, e2] at e
    omega

theorem cert_sound {A B p q p' q' : Nat} (h : Cert A B p q p' q') {m N : Nat} (h0 : 0 < m) (hm : m < million) (hodd : N % 2 = 1) (hN : N < 2 ^ 25)
    (h1 : 2 ^ 53 * (m * A - N * B) ≤ N * B) (h2 : 2 ^ 53 * (N * B - m * A) ≤ N * B) : m * A = N * B := by
  have hf := h.first
  have ho := h.others
  rcases h.between with ⟨e1, e2⟩ | ⟨e1, e2⟩
  · obtain ⟨d, hd⟩ := Nat.exists_eq_add_of_le e1
    obtain ⟨d', hd'⟩ := Nat.exists_eq_add_of_le e2
    rw [show q * A - p * B = d by omega, show p * B - q * A = 0 by omega, show q * A = p * B ↔ d = 0 by omega] at hf
    rw [show q * A - p * B = d by omega, show p * B - q * A = 0 by omega, show q' * A - p' * B = 0 by omega, show p' * B - q' * A = d' by omega] at ho
    simp only [Nat.mul_zero, Nat.zero_mul, Nat.not_lt_zero, false_or, or_false] at hf ho
    exact cert_main h.next (.inl ⟨hd, hd'⟩) h.pos h.big hf ho h0 hm hodd hN h1 h2
  · obtain ⟨d, hd⟩ := Nat.exists_eq_add_of_le e1
    obtain ⟨d', hd'⟩ := Nat.exists_eq_add_of_le e2
    rw [show q * A - p * B = 0 by omega, show p * B - q * A = d by omega, show q * A = p * B ↔ d = 0 by omega] at hf
    rw [show q * A - p * B = 0 by omega, show p * B - q * A = d by omega, show q' * A - p' * B = d' by omega, show p' * B - q' * A = 0 by omega] at ho
    simp only [Nat.mul_zero, Nat.zero_mul, Nat.not_lt_zero, false_or, or_false] at hf ho
    exact cert_main h.next (.inr ⟨hd, hd'⟩) h.pos h.big hf ho h0 hm hodd hN h1 h2

/-- Euclid's algorithm: goes through the continued fraction of `A / B` up to a certificate -/
def findCert (A B : Nat) : Nat → Nat → Nat → Nat → Nat → Nat → Nat → Bool
  | 0, _, _, _, _, _, _ => false
  | fuel + 1, x, y, p, q, p', q' =>
    (million ≤ q' && decide (Cert A B p q p' q')) || (y != 0 && findCert A B fuel y (x % y) p' q' (x / y * p' + p) (x / y * q' + q))

theorem findCert_some {A B : Nat} : ∀ {fuel x y p q p' q' : Nat}, findCert A B fuel x y p q p' q' = true → ∃ p q p' q', Cert A B p q p' q'
  | 0, _, _, _, _, _, _, h => by cases h
  | fuel + 1, x, y, p, q, p', q', h => by
    rw [findCert, Bool.or_eq_true, Bool.and_eq_true, Bool.and_eq_true] at h
    rcases h with h | h
    · exact ⟨p, q, p', q', of_decide_eq_true h.2⟩
    · exact findCert_some h.2

/-- no number with six digits times `A / B` comes close to an odd number between 2^24 and 2^25 -/
def farOff (A B : Nat) : Bool :=
  2 ^ 25 * B ≤ A || A * million ≤ 2 ^ 24 * B || B / A.gcd B ≤ 2 ^ 28 || findCert A B 40 B (A % B) 1 0 (A / B) 1

theorem farOff_sound {A B : Nat} (h : farOff A B = true) (hB : 0 < B) {m N : Nat} (h0 : 0 < m) (hm : m < million) (hodd : N % 2 = 1) (hN : N < 2 ^ 25) (hN' : 2 ^ 24 < N)
    (h1 : 2 ^ 53 * (m * A - N * B) ≤ N * B) (h2 : 2 ^ 53 * (N * B - m * A) ≤ N * B) : m * A = N * B := by
  unfold farOff at h
  simp only [Bool.or_eq_true, decide_eq_true_eq] at h
  have hN1 : (2 ^ 24 + 1) * B ≤ N * B := Nat.mul_le_mul_right _ (by omega)
  have hN2 : (N + 1) * B ≤ 2 ^ 25 * B := Nat.mul_le_mul_right _ (by omega)
  rw [Nat.add_mul] at hN1 hN2
  rcases h with ((h | h) | h) | h
  · have := Nat.mul_le_mul_right A h0
    omega
  · have := Nat.mul_le_mul_right A (Nat.le_of_lt hm)
    rw [Nat.mul_comm million A] at this
    omega
  · obtain ⟨a, ha⟩ := Nat.gcd_dvd_left A B
    obtain ⟨b, hb⟩ := Nat.gcd_dvd_right A B
    have hg : 0 < A.gcd B := Nat.gcd_pos_of_pos_right _ hB
    generalize A.gcd B = g at *
    subst ha
    rw [hb, Nat.mul_div_cancel_left _ hg] at h
    subst hb
    have e1 : m * (g * a) = g * (m * a) := by grind
    have e2 : N * (g * b) = g * (N * b) := by grind
    rw [e1, e2, ← Nat.mul_sub, Nat.mul_left_comm] at h1 h2
    have h1 := Nat.le_of_mul_le_mul_left h1 hg
    have h2 := Nat.le_of_mul_le_mul_left h2 hg
    have e3 : N * b ≤ N * 2 ^ 28 := Nat.mul_le_mul_left _ h
    rw [e1, e2]
    congr 1
    omega
  · obtain ⟨p, q, p', q', hc⟩ := findCert_some h
    exact cert_sound hc h0 hm hodd hN h1 h2

set_option maxRecDepth 100000 in
theorem all_far : ((List.range 83).all fun i => (List.range 255).all fun k => farOff (10 ^ (i - 44) * 2 ^ 151) (10 ^ (44 - i) * 2 ^ k)) = true := by decide +kernel

theorem single_mid_units {a : Nat} (h : 2 ^ 23 ≤ a) : single.units a + single.units (a + 1) = (2 ^ 24 + 2 * (a % 2 ^ 23) + 1) * 2 ^ (a / 2 ^ 23 - 1) := by
  unfold Fmt.units
  show (if a < 2 ^ 23 then a else (2 ^ 23 + a % 2 ^ 23) * 2 ^ (a / 2 ^ 23 - 1)) + (if a + 1 < 2 ^ 23 then a + 1 else (2 ^ 23 + (a + 1) % 2 ^ 23) * 2 ^ ((a + 1) / 2 ^ 23 - 1)) = _
  rw [if_neg (by omega), if_neg (by omega)]
  by_cases h3 : a % 2 ^ 23 + 1 < 2 ^ 23
  · rw [show (a + 1) % 2 ^ 23 = a % 2 ^ 23 + 1 by omega, show (a + 1) / 2 ^ 23 = a / 2 ^ 23 by omega, ← Nat.add_mul]
    congr 1
    omega
  · rw [show (a + 1) % 2 ^ 23 = 0 by omega, show (a + 1) / 2 ^ 23 - 1 = a / 2 ^ 23 - 1 + 1 by omega, show a % 2 ^ 23 = 2 ^ 23 - 1 by omega]
    generalize a / 2 ^ 23 - 1 = x
    rw [show 2 ^ (x + 1) = 2 * 2 ^ x from Nat.pow_succ']
    generalize 2 ^ x = z
    omega

/-- A number with six digits that is not below 2^-126 does not become the middle of two float32 numbers when it is rounded to float64, unless it is that middle. -/
theorem six_mid {q : Rat} {m b a : Nat} {e : Int} (hq : q = (m : Rat) * (10 : Rat) ^ e) (hm : m < million) (hr : (2 : Rat) ^ (-126 : Int) ≤ q) (hb : Nearest double q b) (ha : a < single.inf)
    (hmid : double.val b * 2 = single.val a + single.val (a + 1)) : double.val b = q := by
  have e1 : double.val 0x3810000000000000 = (2 : Rat) ^ (-126 : Int) := by decide +kernel
  have e2 : single.val (2 ^ 23) = (2 : Rat) ^ (-126 : Int) := by decide +kernel
  have hb1 : 0x3810000000000000 ≤ b := nearest_ge hb (by decide) (by rw [e1]; exact hr)
  have hb2 := double.val_le hb1
  rw [e1, ← e2] at hb2
  have ha1 : 2 ^ 23 ≤ a := by
    apply Nat.le_of_not_lt
    intro h
    have h1 := single.val_lt h
    have h2 := single.val_le (show a + 1 ≤ 2 ^ 23 by omega)
    generalize single.val (2 ^ 23) = z at *
    grind
  -- the middle
  have hM : double.val b * ((2 ^ 151 : Nat) : Rat) = (((2 ^ 24 + 2 * (a % 2 ^ 23) + 1) * 2 ^ (a / 2 ^ 23) : Nat) : Rat) := by
    have h1 := single_mid_units ha1
    have h2 := single.val_mul a
    have h3 := single.val_mul (a + 1)
    have h4 : ((2 ^ (single.bias + single.p - 1) : Nat) : Rat) = ((2 ^ 149 : Nat) : Rat) := by decide +kernel
    rw [h4] at h2 h3
    have h5 : ((2 ^ 151 : Nat) : Rat) = 2 * 2 * ((2 ^ 149 : Nat) : Rat) := by decide +kernel
    have h6 : (2 ^ 24 + 2 * (a % 2 ^ 23) + 1) * 2 ^ (a / 2 ^ 23) = 2 * (single.units a + single.units (a + 1)) := by
      rw [h1, Nat.mul_left_comm, show a / 2 ^ 23 = a / 2 ^ 23 - 1 + 1 by omega, Nat.pow_succ]
      rw [Nat.add_sub_cancel]
      grind
    rw [h6, h5, Rat.natCast_mul, Rat.natCast_add, ← h2, ← h3]
    have h7 : (((2 : Nat) : Rat)) = 2 := by decide
    rw [h7]
    generalize ((2 ^ 149 : Nat) : Rat) = z at *
    have : double.val b * (2 * 2 * z) = 2 * (double.val b * 2 * z) := by grind
    rw [this, hmid]
    grind
  have hai : a < 255 * 2 ^ 23 := by
    have : single.inf = 255 * 2 ^ 23 := by decide
    omega
  generalize hN : 2 ^ 24 + 2 * (a % 2 ^ 23) + 1 = N at *
  generalize hk : a / 2 ^ 23 = k at *
  have hk1 : k < 255 := by omega
  -- its distance
  have hbi : b < double.inf := by
    apply Nat.lt_of_not_le
    intro h
    have h1 := double.val_le (Nat.le_trans (show 0x4800000000000000 ≤ double.inf by decide) h)
    have h2 := single.val_le (show a ≤ single.inf by omega)
    have h3 := single.val_le (show a + 1 ≤ single.inf by omega)
    have h4 : single.val single.inf < double.val 0x4800000000000000 := by decide +kernel
    generalize single.val single.inf = z at *
    generalize double.val 0x4800000000000000 = z' at *
    grind
  obtain ⟨h1, h2⟩ := nearest_bounds hb
  have h1 := h1 hbi
  have h2 := h2 (b - 1) (by omega)
  have hp : 2 ^ double.p = 4503599627370496 := by decide
  have g1 := (double.val_gap_le b (by omega)).2 (by omega)
  have g2 := (double.val_gap_le (b - 1) (by omega)).1
  rw [show b - 1 + 1 = b by omega] at g2
  have g3 : ((2 ^ 53 : Nat) : Rat) = 2 * ((2 ^ double.p : Nat) : Rat) := by decide +kernel
  have d1 : ((2 ^ 53 : Nat) : Rat) * (q - double.val b) ≤ double.val b := by
    rw [g3]
    have h0 : (0 : Rat) ≤ ((2 ^ double.p : Nat) : Rat) := Rat.natCast_nonneg
    generalize ((2 ^ double.p : Nat) : Rat) = z at *
    have : z * (q * 2) ≤ z * (double.val b + double.val (b + 1)) := Rat.mul_le_mul_of_nonneg_left h1 h0
    grind
  have d2 : ((2 ^ 53 : Nat) : Rat) * (double.val b - q) ≤ double.val b := by
    rw [g3]
    have h0 : (0 : Rat) ≤ ((2 ^ double.p : Nat) : Rat) := Rat.natCast_nonneg
    generalize ((2 ^ double.p : Nat) : Rat) = z at *
    have : z * (double.val (b - 1) + double.val b) ≤ z * (q * 2) := Rat.mul_le_mul_of_nonneg_left h2 h0
    grind
  -- the range of exponents
  have hm0 : 0 < m := by
    apply Nat.pos_of_ne_zero
    rintro rfl
    rw [show ((0 : Nat) : Rat) = 0 from rfl, Rat.zero_mul] at hq
    rw [hq] at hr
    revert hr
    decide +kernel
  have hlo : -44 < e := by
    have h3 : (10 : Rat) ^ (-38 : Int) ≤ (2 : Rat) ^ (-126 : Int) := by decide +kernel
    have h4 : (m : Rat) * (10 : Rat) ^ e < (10 : Rat) ^ (6 + e) := by
      rw [ten_add, show (10 : Rat) ^ (6 : Int) = ((million : Nat) : Rat) by decide +kernel]
      exact Rat.mul_lt_mul_of_pos_right (Rat.natCast_lt_natCast.2 hm) (ten_pos e)
    rw [← hq] at h4
    have := ten_lt_iff.1 (Std.lt_of_le_of_lt h3 (Std.lt_of_le_of_lt hr h4))
    omega
  have hhi : e < 39 := by
    have h3 := single.val_le (show a ≤ single.inf by omega)
    have h4 := single.val_le (show a + 1 ≤ single.inf by omega)
    have h5 : 2 * single.val single.inf < (10 : Rat) ^ (39 : Int) := by decide +kernel
    have h6 : (10 : Rat) ^ e ≤ q := by
      rw [hq]
      have := Rat.mul_le_mul_of_nonneg_right (Rat.natCast_le_natCast.2 hm0) (Rat.le_of_lt (ten_pos e))
      rw [show ((0 + 1 : Nat) : Rat) = 1 from rfl, Rat.one_mul] at this
      exact this
    have h7 : q ≤ 2 * double.val b := by
      have h8 := double.val_nonneg b
      have h9 : (1 : Rat) ≤ ((2 ^ 53 : Nat) : Rat) := by decide +kernel
      apply Rat.not_lt.1
      intro hlt
      have : 1 * (q - double.val b) ≤ ((2 ^ 53 : Nat) : Rat) * (q - double.val b) := Rat.mul_le_mul_of_nonneg_right h9 (by grind)
      generalize ((2 ^ 53 : Nat) : Rat) = z at *
      grind
    have h8 : (10 : Rat) ^ e < (10 : Rat) ^ (39 : Int) := by
      generalize (10 : Rat) ^ (39 : Int) = z at *
      generalize single.val single.inf = z' at *
      grind
    exact ten_lt_iff.1 h8
  obtain ⟨i, hi⟩ : ∃ i : Nat, e = (i : Int) - 44 := ⟨(e + 44).toNat, by omega⟩
  have hi83 : i < 83 := by omega
  -- whole numbers
  have hten : (10 : Rat) ^ e * ((10 ^ (44 - i) : Nat) : Rat) = ((10 ^ (i - 44) : Nat) : Rat) := by
    rw [← ten_nat, ← ten_nat, ← ten_add]
    congr 1
    omega
  have hfar : farOff (10 ^ (i - 44) * 2 ^ 151) (10 ^ (44 - i) * 2 ^ k) = true := by
    have := all_far
    rw [List.all_eq_true] at this
    have := this i (List.mem_range.2 hi83)
    rw [List.all_eq_true] at this
    exact this k (List.mem_range.2 hk1)
  have hmA : ((m * (10 ^ (i - 44) * 2 ^ 151) : Nat) : Rat) = q * (((10 ^ (44 - i) : Nat) : Rat) * ((2 ^ 151 : Nat) : Rat)) := by
    rw [Rat.natCast_mul, Rat.natCast_mul, ← hten, hq]
    generalize ((2 ^ 151 : Nat) : Rat) = z
    grind
  have hNB : ((N * (10 ^ (44 - i) * 2 ^ k) : Nat) : Rat) = double.val b * (((10 ^ (44 - i) : Nat) : Rat) * ((2 ^ 151 : Nat) : Rat)) := by
    rw [Nat.mul_left_comm, Rat.natCast_mul, ← hM]
    generalize ((2 ^ 151 : Nat) : Rat) = z
    grind
  have hz : 0 < ((10 ^ (44 - i) : Nat) : Rat) * ((2 ^ 151 : Nat) : Rat) :=
    Rat.mul_pos (Rat.natCast_pos.2 (Nat.pow_pos (by omega))) (Rat.natCast_pos.2 (Nat.two_pow_pos _))
  generalize ((10 ^ (44 - i) : Nat) : Rat) * ((2 ^ 151 : Nat) : Rat) = z at *
  have n1 : 2 ^ 53 * (m * (10 ^ (i - 44) * 2 ^ 151)) ≤ 2 ^ 53 * (N * (10 ^ (44 - i) * 2 ^ k)) + N * (10 ^ (44 - i) * 2 ^ k) := by
    generalize m * (10 ^ (i - 44) * 2 ^ 151) = mA at *
    generalize N * (10 ^ (44 - i) * 2 ^ k) = nB at *
    rw [← Rat.natCast_le_natCast, Rat.natCast_add, Rat.natCast_mul, Rat.natCast_mul, hmA, hNB]
    have := Rat.mul_le_mul_of_nonneg_right d1 (Rat.le_of_lt hz)
    generalize ((2 ^ 53 : Nat) : Rat) = w at *
    grind
  have n2 : 2 ^ 53 * (N * (10 ^ (44 - i) * 2 ^ k)) ≤ 2 ^ 53 * (m * (10 ^ (i - 44) * 2 ^ 151)) + N * (10 ^ (44 - i) * 2 ^ k) := by
    generalize m * (10 ^ (i - 44) * 2 ^ 151) = mA at *
    generalize N * (10 ^ (44 - i) * 2 ^ k) = nB at *
    rw [← Rat.natCast_le_natCast, Rat.natCast_add, Rat.natCast_mul, Rat.natCast_mul, hmA, hNB]
    have := Rat.mul_le_mul_of_nonneg_right d2 (Rat.le_of_lt hz)
    generalize ((2 ^ 53 : Nat) : Rat) = w at *
    grind
  have hfin := farOff_sound hfar (Nat.mul_pos (Nat.pow_pos (by omega)) (Nat.two_pow_pos _)) hm0 hm (show N % 2 = 1 by omega) (by omega) (by omega)
    (by rw [Nat.mul_sub]; omega) (by rw [Nat.mul_sub]; omega)
  have := congrArg (Nat.cast : Nat → Rat) hfin
  rw [hmA, hNB] at this
  have hle : ∀ {x y : Rat}, x * z = y * z → x ≤ y := fun h => Rat.le_of_mul_le_mul_right (by rw [h]; exact Rat.le_refl) hz
  exact Rat.le_antisymm (hle this.symm) (hle this)

end JV
