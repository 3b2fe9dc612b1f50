import Verif.Proofs.Ieee
/-!
How many decimal digits a floating point number needs.
-/
namespace JV
open Spec

/-- a step down is at least the `2 ^ (p + 1)`th part of the number -/
theorem _root_.Spec.Fmt.units_gap (F : Fmt) (b : Nat) : F.units (b + 1) ≤ 2 ^ (F.p + 1) * (F.units (b + 1) - F.units b) := by
  have hlt := F.units_lt b
  unfold Fmt.units at *
  have hp : 0 < 2 ^ F.p := Nat.two_pow_pos _
  rw [Nat.pow_succ]
  generalize 2 ^ F.p = P at *
  by_cases h1 : b + 1 < P
  · rw [if_pos h1, if_pos (by omega), show b + 1 - b = 1 by omega]; omega
  by_cases h2 : b < P
  · rw [if_pos h2, if_neg h1]
    have h3 : b + 1 = P := by omega
    have h5 : (b + 1) % P = 0 := by rw [h3, Nat.mod_self]
    have h6 : (b + 1) / P = 1 := by rw [h3]; exact Nat.div_self hp
    rw [h5, h6]
    simp only [Nat.add_zero, Nat.sub_self, Nat.pow_zero, Nat.mul_one]
    rw [show P - b = 1 by omega]
    omega
  rw [if_neg h1, if_neg h2]
  have h0 : 1 ≤ b / P := (Nat.le_div_iff_mul_le hp).2 (by omega)
  have hm := Nat.mod_lt b hp
  by_cases h3 : b % P + 1 < P
  · have h4 : (b + 1) / P = b / P ∧ (b + 1) % P = b % P + 1 := by
      rw [Nat.div_mod_unique hp]
      have := Nat.div_add_mod b P
      omega
    rw [h4.1, h4.2, ← Nat.sub_mul, show P + (b % P + 1) - (P + b % P) = 1 by omega, Nat.one_mul]
    exact Nat.mul_le_mul_right _ (by omega)
  · have h4 : (b + 1) / P = b / P + 1 ∧ (b + 1) % P = 0 := by
      rw [Nat.div_mod_unique hp]
      have := Nat.div_add_mod b P
      rw [Nat.mul_add]
      omega
    rw [h4.1, h4.2]
    obtain ⟨k, hk⟩ : ∃ k, b / P = k + 1 := ⟨b / P - 1, by omega⟩
    rw [hk]
    simp only [Nat.add_sub_cancel, Nat.add_zero]
    rw [Nat.pow_succ, Nat.mul_comm (2 ^ k) 2, ← Nat.mul_assoc, ← Nat.sub_mul, show P * 2 - (P + b % P) = 1 by omega, Nat.one_mul]
    exact Nat.le_refl _

theorem _root_.Spec.Fmt.val_gap (F : Fmt) (b : Nat) : F.val (b + 1) ≤ ((2 ^ (F.p + 1) : Nat) : Rat) * (F.val (b + 1) - F.val b) := by
  have h := F.units_gap b
  have hlt := F.units_lt b
  have h1 : (F.units (b + 1) : Rat) ≤ ((2 ^ (F.p + 1) : Nat) : Rat) * ((F.units (b + 1) : Rat) - (F.units b : Rat)) := by
    obtain ⟨d, hd⟩ : ∃ d, F.units (b + 1) = F.units b + d := ⟨F.units (b + 1) - F.units b, by omega⟩
    rw [hd, Nat.add_sub_cancel_left] at h
    have h2 := Rat.natCast_le_natCast.2 h
    rw [Rat.natCast_mul] at h2
    rw [hd]
    rw [Rat.natCast_add] at h2 ⊢
    have : ((F.units b : Rat) + (d : Rat) - (F.units b : Rat)) = d := by grind
    rw [this]
    exact h2
  rw [← F.val_mul, ← F.val_mul] at h1
  refine Rat.le_of_mul_le_mul_right (c := ((2 ^ (F.bias + F.p - 1) : Nat) : Rat)) ?_ F.one_pos
  grind

theorem ten_ne0 : (10 : Rat) ≠ 0 := by decide

theorem ten_succ (k : Int) : (10 : Rat) ^ (k + 1) = 10 * (10 : Rat) ^ k := by
  rw [Rat.zpow_add ten_ne0, Rat.mul_comm]
  congr 1
  
theorem ten_add (a b : Int) : (10 : Rat) ^ (a + b) = (10 : Rat) ^ a * (10 : Rat) ^ b := Rat.zpow_add ten_ne0 a b

theorem ten_nat (n : Nat) : (10 : Rat) ^ (n : Int) = ((10 ^ n : Nat) : Rat) := by
  rw [Rat.zpow_natCast, Rat.natCast_pow]; rfl

theorem ten_mono {a b : Int} (h : a ≤ b) : (10 : Rat) ^ a ≤ (10 : Rat) ^ b := by
  obtain ⟨n, rfl⟩ : ∃ n : Nat, b = a + n := ⟨(b - a).toNat, by omega⟩
  rw [ten_add, ten_nat]
  have h1 : (1 : Rat) ≤ ((10 ^ n : Nat) : Rat) := by
    rw [show (1 : Rat) = ((1 : Nat) : Rat) from rfl, Rat.natCast_le_natCast]
    exact Nat.pow_pos (by omega)
  have := Rat.mul_le_mul_of_nonneg_left h1 (Rat.le_of_lt (ten_pos a))
  rwa [Rat.mul_one] at this

theorem ten_lt_iff {a b : Int} : (10 : Rat) ^ a < (10 : Rat) ^ b ↔ a < b := by
  constructor
  · intro h
    apply Int.not_le.1
    intro hle
    exact Rat.not_lt.2 (ten_mono hle) h
  · intro h
    have h1 := ten_mono (show a + 1 ≤ b by omega)
    rw [ten_succ] at h1
    have := ten_pos a
    grind

/-- the power of ten below a number -/
theorem log10_exists {x : Rat} {a : Int} (n : Nat) (h1 : (10 : Rat) ^ a ≤ x) (h2 : x < (10 : Rat) ^ (a + n)) :
    ∃ k : Int, (10 : Rat) ^ k ≤ x ∧ x < (10 : Rat) ^ (k + 1) := by
  induction n with
  | zero => rw [show a + ((0 : Nat) : Int) = a by omega] at h2; exact absurd h1 (Rat.not_le.2 h2)
  | succ n ih =>
    by_cases h : x < (10 : Rat) ^ (a + n)
    · exact ih h
    · exact ⟨a + n, Rat.not_lt.1 h, by rw [show a + (n : Int) + 1 = a + ((n + 1 : Nat) : Int) by omega]; exact h2⟩

theorem val_log10 (F : Fmt) {b : Nat} (hb : 0 < b) : ∃ k : Int, (10 : Rat) ^ k ≤ F.val b ∧ F.val b < (10 : Rat) ^ (k + 1) := by
  have hu : 1 ≤ F.units b := by
    have h1 := F.val_lt hb
    rw [F.val_zero] at h1
    apply Nat.succ_le_of_lt
    apply Nat.pos_of_ne_zero
    intro h0
    have := F.val_mul b
    rw [h0] at this
    have h3 := F.one_pos
    have h4 := Rat.mul_lt_mul_of_pos_right h1 h3
    rw [this] at h4
    exact absurd h4 (by simp)
  have hm := F.val_mul b
  generalize F.bias + F.p - 1 = s at hm
  have hs : (0 : Rat) < ((2 ^ s : Nat) : Rat) := Rat.natCast_pos.2 (Nat.two_pow_pos _)
  have hu' : (1 : Rat) ≤ (F.units b : Rat) := by
    rw [show (1 : Rat) = ((1 : Nat) : Rat) from rfl, Rat.natCast_le_natCast]; exact hu
  refine log10_exists (a := -(s : Int)) (s + F.units b) ?_ ?_
  · refine Rat.le_of_mul_le_mul_right (c := ((10 ^ s : Nat) : Rat)) ?_ (Rat.natCast_pos.2 (Nat.pow_pos (by omega)))
    rw [← ten_nat, ← ten_add, show -(s : Int) + s = 0 by omega, ten_nat, show (10 : Rat) ^ (0 : Int) = 1 by decide +kernel]
    have h1 : ((2 ^ s : Nat) : Rat) ≤ ((10 ^ s : Nat) : Rat) := Rat.natCast_le_natCast.2 (Nat.pow_le_pow_left (by omega) s)
    have := Rat.mul_le_mul_of_nonneg_left h1 (F.val_nonneg b)
    grind
  · rw [show -(s : Int) + ((s + F.units b : Nat) : Int) = (F.units b : Int) by omega, ten_nat]
    have h1 : F.units b < 10 ^ F.units b := Nat.lt_pow_self (by omega)
    have h2 := Rat.natCast_lt_natCast.2 h1
    have h3 : (1 : Rat) ≤ ((2 ^ s : Nat) : Rat) := by
      rw [show (1 : Rat) = ((1 : Nat) : Rat) from rfl, Rat.natCast_le_natCast]; exact Nat.two_pow_pos _
    have := Rat.mul_le_mul_of_nonneg_left h3 (F.val_nonneg b)
    grind

/-- near enough to be read as `b` -/
theorem nearest_of_close {F : Fmt} {b : Nat} {v s : Rat} (hb : b < F.inf) (h1 : (v - F.val b) * 2 ≤ s) (h2 : (F.val b - v) * 2 ≤ s)
    (hg : ((2 ^ (F.p + 1) : Nat) : Rat) * s < F.val b) : Nearest F v b := by
  have hp : (0 : Rat) < ((2 ^ (F.p + 1) : Nat) : Rat) := Rat.natCast_pos.2 (Nat.two_pow_pos _)
  rw [nearest_iff]
  refine ⟨by omega, fun _ => .inl ?_, ?_⟩
  · have h3 := F.val_gap b
    have h4 := F.val_succ b
    have h5 : ((2 ^ (F.p + 1) : Nat) : Rat) * s < ((2 ^ (F.p + 1) : Nat) : Rat) * (F.val (b + 1) - F.val b) := by grind
    rw [Rat.mul_lt_mul_left hp] at h5
    grind
  · rintro c rfl
    have h3 := F.val_gap c
    have h5 : ((2 ^ (F.p + 1) : Nat) : Rat) * s < ((2 ^ (F.p + 1) : Nat) : Rat) * (F.val (c + 1) - F.val c) := by grind
    rw [Rat.mul_lt_mul_left hp] at h5
    exact .inl (by grind)

/-- digits without a leading zero are of the size that their number says -/
theorem decVal_lead {d : Bytes} (hd : Digits d) (hl : ∀ u, d ≠ 0x30 :: u) (hne : d ≠ []) : 10 ^ (d.length - 1) ≤ decVal d := by
  cases d with
  | nil => exact absurd rfl hne
  | cons c u =>
    have h1 := hd c (by simp)
    have h2 : c ≠ 0x30 := fun h => hl u (by rw [h])
    have h3 : c.toNat ≠ 48 := fun h => h2 (UInt8.toNat_inj.1 h)
    unfold Digit at h1
    rw [show c :: u = [c] ++ u from rfl, decVal_cat]
    have h4 : decVal [c] = c.toNat - 0x30 := by simp [decVal]
    rw [h4]
    simp only [List.length_append, List.length_singleton, Nat.add_sub_cancel_left]
    have : 1 * 10 ^ u.length ≤ (c.toNat - 0x30) * 10 ^ u.length := Nat.mul_le_mul_right _ (by omega)
    omega

/-- `0.d × 10^dp` lies between `10^(dp-1)` and `10^dp` -/
theorem digitsValue_bounds {g : FDigits} (hd : Digits g.d) (hl : ∀ u, g.d ≠ 0x30 :: u) (hne : g.d ≠ []) :
    (10 : Rat) ^ (g.dp - 1) ≤ digitsValue false g ∧ digitsValue false g < (10 : Rat) ^ g.dp := by
  have h1 := decVal_lead hd hl hne
  have h2 := decVal_le _ hd
  have hlen : 0 < g.d.length := List.length_pos_iff.2 hne
  have hp := ten_pos (g.dp - g.d.length)
  have e : digitsValue false g = (decVal g.d : Rat) * (10 : Rat) ^ (g.dp - g.d.length) := by
    unfold digitsValue
    rw [if_neg (by decide), Rat.one_mul]
  rw [e]
  constructor
  · rw [show g.dp - 1 = ((g.d.length - 1 : Nat) : Int) + (g.dp - g.d.length) by omega, ten_add, ten_nat]
    exact Rat.mul_le_mul_of_nonneg_right (Rat.natCast_le_natCast.2 h1) (Rat.le_of_lt hp)
  · have : (10 : Rat) ^ g.dp = (10 : Rat) ^ (g.d.length : Int) * (10 : Rat) ^ (g.dp - g.d.length) := by
      rw [← ten_add]; congr 1; omega
    rw [this, ten_nat]
    exact Rat.mul_lt_mul_of_pos_right (Rat.natCast_lt_natCast.2 h2) hp

theorem natDigits_lead {n : Nat} (hn : 0 < n) : ∀ u, natDigits n ≠ 0x30 :: u := by
  intro u h
  obtain ⟨d, ds, h1, h2⟩ := (natDigits_spec n).2.2.2 hn
  rw [h] at h1
  cases h1
  revert h2
  decide

theorem natDigits_few {n N : Nat} (hn : 0 < n) (h : n < 10 ^ N) : (natDigits n).length ≤ N := by
  obtain ⟨h1, h2, h3, -⟩ := natDigits_spec n
  have h4 := decVal_lead h1 (natDigits_lead hn) h2
  rw [h3] at h4
  have h5 : 10 ^ ((natDigits n).length - 1) < 10 ^ N := by omega
  have := (Nat.pow_lt_pow_iff_right (by omega)).1 h5
  omega

/-- the digits of `n` times a power of ten -/
theorem digits_of_nat {n N : Nat} (k : Int) (hn : 0 < n) (h : n < 10 ^ N) :
    ∃ g : FDigits, Digits g.d ∧ (∀ u, g.d ≠ 0x30 :: u) ∧ g.d ≠ [] ∧ g.d.length ≤ N ∧ digitsValue false g = (n : Rat) * (10 : Rat) ^ k := by
  obtain ⟨h1, h2, h3, -⟩ := natDigits_spec n
  refine ⟨⟨natDigits n, (natDigits n).length + k⟩, h1, natDigits_lead hn, h2, natDigits_few hn h, ?_⟩
  unfold digitsValue
  rw [if_neg (by decide), Rat.one_mul, h3]
  congr 2
  show ((natDigits n).length : Int) + k - (natDigits n).length = k
  omega

/-- enough digits tell all numbers of the format apart -/
theorem digits_exist (F : Fmt) {N b : Nat} (hN : 2 ^ (F.p + 1) < 10 ^ N) (hb : 0 < b) (hi : b < F.inf) :
    ∃ g : FDigits, Digits g.d ∧ (∀ u, g.d ≠ 0x30 :: u) ∧ g.d ≠ [] ∧ g.d.length ≤ N + 1 ∧ Nearest F (digitsValue false g) b := by
  obtain ⟨k, hk1, hk2⟩ := val_log10 F hb
  -- `s` is what the last digit counts
  have hs := ten_pos (k - N)
  have hx1 : ((10 ^ N : Nat) : Rat) * (10 : Rat) ^ (k - N) ≤ F.val b := by
    rw [← ten_nat, ← ten_add, show (N : Int) + (k - N) = k by omega]; exact hk1
  have hx2 : F.val b < ((10 ^ (N + 1) : Nat) : Rat) * (10 : Rat) ^ (k - N) := by
    rw [← ten_nat, ← ten_add, show ((N + 1 : Nat) : Int) + (k - N) = k + 1 by omega]; exact hk2
  have hg : ((2 ^ (F.p + 1) : Nat) : Rat) * (10 : Rat) ^ (k - N) < F.val b := by
    have := Rat.mul_lt_mul_of_pos_right (Rat.natCast_lt_natCast.2 hN) hs
    grind
  -- the number in units of the last digit
  obtain ⟨y, hy⟩ : ∃ y : Rat, y * (10 : Rat) ^ (k - N) = F.val b := ⟨F.val b / (10 : Rat) ^ (k - N), Rat.div_mul_cancel (by grind)⟩
  have hy1 : ((10 ^ N : Nat) : Rat) ≤ y := by
    rw [← hy] at hx1
    exact Rat.le_of_mul_le_mul_right hx1 hs
  have hy2 : y < ((10 ^ (N + 1) : Nat) : Rat) := by
    rw [← hy, Rat.mul_lt_mul_right hs] at hx2
    exact hx2
  -- rounded
  obtain ⟨m, hm⟩ : ∃ m : Nat, ((m : Int)) = (y + 1 / 2).floor := by
    have h0 : (0 : Int) ≤ (y + 1 / 2).floor := by
      rw [Rat.le_floor_iff]
      have : (0 : Rat) ≤ ((10 ^ N : Nat) : Rat) := Rat.natCast_nonneg
      rw [Rat.intCast_zero]
      grind
    exact ⟨(y + 1 / 2).floor.toNat, by omega⟩
  have hf1 := Rat.floor_le (y + 1 / 2)
  have hf2 := Rat.lt_floor_add_one (y + 1 / 2)
  rw [← hm] at hf1 hf2
  rw [Rat.intCast_add] at hf2
  have em : ((m : Int) : Rat) = (m : Rat) := rfl
  have e1 : ((1 : Int) : Rat) = 1 := rfl
  rw [em] at hf1 hf2
  rw [e1] at hf2
  have hmlo : 10 ^ N ≤ m := by
    have : ((10 ^ N : Nat) : Rat) < ((m + 1 : Nat) : Rat) := by
      rw [Rat.natCast_add, show ((1 : Nat) : Rat) = 1 from rfl]; grind
    have := Rat.natCast_lt_natCast.1 this
    omega
  have hmhi : m ≤ 10 ^ (N + 1) := by
    have : (m : Rat) < ((10 ^ (N + 1) + 1 : Nat) : Rat) := by
      rw [Rat.natCast_add, show ((1 : Nat) : Rat) = 1 from rfl]; grind
    have := Rat.natCast_lt_natCast.1 this
    omega
  have hclose : Nearest F ((m : Rat) * (10 : Rat) ^ (k - N)) b := by
    refine nearest_of_close (s := (10 : Rat) ^ (k - N)) hi ?_ ?_ hg
    · rw [← hy]
      have h1 : ((m : Rat) - y) * 2 ≤ 1 := by grind
      have := Rat.mul_le_mul_of_nonneg_right h1 (Rat.le_of_lt hs)
      grind
    · rw [← hy]
      have h1 : (y - (m : Rat)) * 2 ≤ 1 := by grind
      have := Rat.mul_le_mul_of_nonneg_right h1 (Rat.le_of_lt hs)
      grind
  have hNpos : 0 < 10 ^ N := Nat.pow_pos (by omega)
  rcases Nat.lt_or_eq_of_le hmhi with h | h
  · obtain ⟨g, h1, h2, h3, h4, h5⟩ := digits_of_nat (k - N) (by omega) h
    exact ⟨g, h1, h2, h3, h4, by rw [h5]; exact hclose⟩
  · obtain ⟨g, h1, h2, h3, h4, h5⟩ := digits_of_nat (n := 10 ^ N) (N := N + 1) (k - N + 1) hNpos (Nat.pow_lt_pow_right (by omega) (by omega))
    refine ⟨g, h1, h2, h3, h4, ?_⟩
    rw [h5, ten_succ]
    rw [h, Nat.pow_succ, Rat.natCast_mul] at hclose
    have : ((10 ^ N : Nat) : Rat) * (10 * (10 : Rat) ^ (k - N)) = ((10 ^ N : Nat) : Rat) * ((10 : Nat) : Rat) * (10 : Rat) ^ (k - N) := by
      rw [show ((10 : Nat) : Rat) = 10 from rfl]; grind
    rw [this]
    exact hclose

/-! ### the fewest digits -/

theorem fewest_ne {F : Fmt} {b : Nat} {g : FDigits} (h : Fewest F b g) : g.d = [] ↔ b = 0 := by
  constructor
  · intro h0
    have := h.reads
    unfold digitsValue at this
    rw [h0, show decVal [] = 0 from rfl] at this
    have e : (if false = true then (-1 : Rat) else 1) * ((0 : Nat) : Rat) * (10 : Rat) ^ (g.dp - ([] : Bytes).length) = F.val 0 := by
      rw [F.val_zero, show ((0 : Nat) : Rat) = 0 from rfl]; grind
    rw [e] at this
    exact nearest_unique this (nearest_self (Nat.zero_le _))
  · intro h0
    rw [h.zero h0]

theorem fewest_few {F : Fmt} {N b : Nat} {g : FDigits} (h : Fewest F b g) (hN : 2 ^ (F.p + 1) < 10 ^ N) (hi : b < F.inf) : g.d.length ≤ N + 1 := by
  by_cases hb : b = 0
  · rw [(fewest_ne h).2 hb]; simp
  · obtain ⟨g', h1, -, -, h2, h3⟩ := digits_exist F hN (Nat.pos_of_ne_zero hb) hi
    exact Nat.le_trans (h.fewest g' h1 h3) h2

/-- At a power of ten: the digits are at least `10^k` just if the number is at least the one nearest to `10^k`. -/
theorem fewest_power {F : Fmt} {b c : Nat} {g : FDigits} {k : Int} (h : Fewest F b g) (hne : g.d ≠ []) (hc : Nearest F ((10 : Rat) ^ k) c)
    (h9 : ¬ Nearest F (9 * (10 : Rat) ^ (k - 1)) c) : k + 1 ≤ g.dp ↔ c ≤ b := by
  obtain ⟨h1, h2⟩ := digitsValue_bounds h.digits h.lead hne
  constructor
  · intro hk
    exact nearest_mono hc h.reads (by have := ten_mono (show k ≤ g.dp - 1 by omega); grind)
  · intro hle
    apply Int.not_lt.1
    intro hlt
    have h3 := ten_mono (show g.dp ≤ k by omega)
    have h4 := nearest_mono h.reads hc (by grind)
    obtain rfl : b = c := by omega
    -- one digit is enough
    have h5 : g.d.length ≤ 1 := by
      refine h.fewest ⟨[0x31], k + 1⟩ (by intro x hx; rw [List.mem_singleton.1 hx]; unfold Digit; decide) ?_
      have e : digitsValue false ⟨[0x31], k + 1⟩ = (10 : Rat) ^ k := by
        unfold digitsValue
        rw [if_neg (by decide), show decVal [0x31] = 1 from rfl, show k + 1 - (([0x31] : Bytes).length : Int) = k by simp]
        rw [show ((1 : Nat) : Rat) = 1 from rfl]; grind
      rw [e]
      exact hc
    have h6 := h.reads
    match hd : g.d, h5, hne with
    | [x], _, _ =>
      have hx := h.digits x (by rw [hd]; simp)
      unfold Digit at hx
      have e : digitsValue false g = ((x.toNat - 0x30 : Nat) : Rat) * (10 : Rat) ^ (g.dp - 1) := by
        unfold digitsValue
        rw [if_neg (by decide), hd, show decVal [x] = x.toNat - 0x30 by simp [decVal], Rat.one_mul]
        rfl
      have h7 : digitsValue false g ≤ 9 * (10 : Rat) ^ (k - 1) := by
        rw [e]
        have h8 := ten_mono (show g.dp - 1 ≤ k - 1 by omega)
        have h9 : ((x.toNat - 0x30 : Nat) : Rat) ≤ 9 := by
          rw [show (9 : Rat) = ((9 : Nat) : Rat) from rfl, Rat.natCast_le_natCast]; omega
        have h10 := Rat.mul_le_mul_of_nonneg_right h9 (Rat.le_of_lt (ten_pos (g.dp - 1)))
        grind
      have h8 : 9 * (10 : Rat) ^ (k - 1) ≤ (10 : Rat) ^ k := by
        have h10 := ten_succ (k - 1)
        rw [show k - 1 + 1 = k by omega] at h10
        have := ten_pos (k - 1)
        rw [h10]
        grind
      obtain ⟨a, ha⟩ := nearest_exists F (q := 9 * (10 : Rat) ^ (k - 1)) (by have := ten_pos (k - 1); grind)
      have h11 := nearest_mono h6 ha h7
      have h12 := nearest_mono ha hc h8
      obtain rfl : a = b := by omega
      exact h9 ha

/-- the size of the exponent -/
theorem fewest_size {F : Fmt} {b : Nat} {g : FDigits} (h : Fewest F b g) (hne : g.d ≠ []) {lo hi : Int} (h1 : F.val F.inf ≤ (10 : Rat) ^ hi) (h2 : (10 : Rat) ^ lo * 2 ≤ F.val 1)
    (hb : b < F.inf) : lo ≤ g.dp ∧ g.dp ≤ hi + 1 := by
  obtain ⟨h3, h4⟩ := digitsValue_bounds h.digits h.lead hne
  have h0 : b ≠ 0 := fun h0 => hne ((fewest_ne h).2 h0)
  obtain ⟨h5, h6⟩ := nearest_bounds h.reads
  constructor
  · apply Int.not_lt.1
    intro hlt
    obtain ⟨c, rfl⟩ : ∃ c, b = c + 1 := ⟨b - 1, by omega⟩
    have h7 := h6 c rfl
    have h8 := F.val_nonneg c
    have h9 := F.val_le (show 1 ≤ c + 1 by omega)
    have h10 := ten_mono (Int.le_of_lt hlt)
    grind
  · apply Int.not_lt.1
    intro hlt
    have h7 := h5 hb
    have h8 := F.val_lt hb
    have h9 := F.val_le hb
    have h10 := ten_mono (show hi ≤ g.dp - 1 by omega)
    grind

theorem nine_not {F : Fmt} {q : Rat} {c : Nat} (hc : 0 < c) (hi : c ≤ F.inf) (h : q * 2 < F.val (c - 1) + F.val c) : ¬ Nearest F q c := by
  intro hn
  obtain ⟨a, rfl⟩ : ∃ a, c = a + 1 := ⟨c - 1, by omega⟩
  have := (nearest_bounds hn).2 a rfl
  rw [Nat.add_sub_cancel] at h
  grind

/-- 1e21 in both formats -/
theorem power_1e21 : Nearest double ((10 : Rat) ^ (21 : Int)) 0x444B1AE4D6E2EF50 ∧ ¬ Nearest double (9 * (10 : Rat) ^ ((21 : Int) - 1)) 0x444B1AE4D6E2EF50 := by
  constructor
  · rw [nearest_iff]
    refine ⟨by decide, fun _ => .inl (by decide +kernel), fun c hc => .inl ?_⟩
    obtain rfl : c = 0x444B1AE4D6E2EF4F := by omega
    decide +kernel
  · exact nine_not (by decide) (by decide) (by decide +kernel)

theorem power_1em6 : Nearest double ((10 : Rat) ^ (-6 : Int)) 0x3EB0C6F7A0B5ED8D ∧ ¬ Nearest double (9 * (10 : Rat) ^ ((-6 : Int) - 1)) 0x3EB0C6F7A0B5ED8D := by
  constructor
  · rw [nearest_iff]
    refine ⟨by decide, fun _ => .inl (by decide +kernel), fun c hc => .inl ?_⟩
    obtain rfl : c = 0x3EB0C6F7A0B5ED8C := by omega
    decide +kernel
  · exact nine_not (by decide) (by decide) (by decide +kernel)

end JV
