import Verif.Spec.Ieee
import Verif.Proofs.FloatFmt
/-!
Rounding to binary floating point numbers.
-/
namespace JV
open Spec

theorem _root_.Spec.Fmt.units_lt (F : Fmt) (b : Nat) : F.units b < F.units (b + 1) := by
  unfold Fmt.units
  have hp : 0 < 2 ^ F.p := Nat.two_pow_pos _
  generalize 2 ^ F.p = P at *
  by_cases h1 : b + 1 < P
  · rw [if_pos h1, if_pos (by omega)]; omega
  by_cases h2 : b < P
  · rw [if_pos h2, if_neg h1]
    have h3 : b + 1 = P := by omega
    have h5 : (b + 1) % P = 0 := by rw [h3, Nat.mod_self]
    have h6 : (b + 1) / P = 1 := by rw [h3]; exact Nat.div_self hp
    rw [h5, h6]
    simp
    omega
  rw [if_neg h1, if_neg h2]
  have h0 : 1 ≤ b / P := (Nat.le_div_iff_mul_le hp).2 (by omega)
  have hm := Nat.mod_lt b hp
  by_cases h3 : b % P + 1 < P
  · have h4 : (b + 1) / P = b / P ∧ (b + 1) % P = b % P + 1 := by
      rw [Nat.div_mod_unique hp]
      have := Nat.div_add_mod b P
      omega
    rw [h4.1, h4.2]
    exact Nat.mul_lt_mul_of_pos_right (by omega) (Nat.two_pow_pos _)
  · have h4 : (b + 1) / P = b / P + 1 ∧ (b + 1) % P = 0 := by
      rw [Nat.div_mod_unique hp]
      have := Nat.div_add_mod b P
      rw [Nat.mul_add]
      omega
    rw [h4.1, h4.2]
    obtain ⟨k, hk⟩ : ∃ k, b / P = k + 1 := ⟨b / P - 1, by omega⟩
    rw [hk]
    simp only [Nat.add_sub_cancel, Nat.add_zero]
    rw [Nat.pow_succ, ← Nat.mul_assoc, Nat.mul_right_comm]
    exact Nat.mul_lt_mul_of_pos_right (by omega) (Nat.two_pow_pos _)

theorem _root_.Spec.Fmt.one_pos (F : Fmt) : (0 : Rat) < ((2 ^ (F.bias + F.p - 1) : Nat) : Rat) := Rat.natCast_pos.2 (Nat.two_pow_pos _)

theorem _root_.Spec.Fmt.val_mul (F : Fmt) (b : Nat) : F.val b * ((2 ^ (F.bias + F.p - 1) : Nat) : Rat) = (F.units b : Rat) :=
  Rat.div_mul_cancel (by have := F.one_pos; grind)

theorem _root_.Spec.Fmt.val_succ (F : Fmt) (b : Nat) : F.val b < F.val (b + 1) := by
  rw [← Rat.mul_lt_mul_right F.one_pos, F.val_mul, F.val_mul, Rat.natCast_lt_natCast]
  exact F.units_lt b

theorem _root_.Spec.Fmt.val_lt (F : Fmt) {a b : Nat} (h : a < b) : F.val a < F.val b := by
  induction b with
  | zero => omega
  | succ b ih =>
    have h1 := F.val_succ b
    rcases Nat.lt_or_ge a b with h2 | h2
    · have := ih h2; grind
    · rw [show a = b by omega]; exact h1

theorem _root_.Spec.Fmt.val_le (F : Fmt) {a b : Nat} (h : a ≤ b) : F.val a ≤ F.val b := by
  rcases Nat.lt_or_eq_of_le h with h | rfl
  · exact Rat.le_of_lt (F.val_lt h)
  · exact Rat.le_refl

theorem _root_.Spec.Fmt.val_zero (F : Fmt) : F.val 0 = 0 := by
  unfold Fmt.val Fmt.units
  rw [if_pos (Nat.two_pow_pos _)]
  simp [Rat.div_def]

theorem _root_.Spec.Fmt.val_nonneg (F : Fmt) (b : Nat) : 0 ≤ F.val b := F.val_zero ▸ F.val_le (Nat.zero_le b)

theorem abs_cases (x : Rat) : (0 ≤ x ∧ x.abs = x) ∨ (x ≤ 0 ∧ x.abs = -x) := by
  rcases Rat.le_total (a := 0) (b := x) with h | h
  · exact .inl ⟨h, Rat.abs_of_nonneg h⟩
  · exact .inr ⟨h, Rat.abs_of_nonpos h⟩

theorem nearest_le {F : Fmt} {q : Rat} {b c : Nat} (h : Nearest F q b) (hc : c ≤ F.inf) (hq : q ≤ F.val c) : b ≤ c := by
  apply Nat.le_of_not_lt
  intro hlt
  have h1 := h.near c hc
  have h2 := F.val_lt hlt
  rcases abs_cases (F.val b - q) with h3 | h3 <;> rcases abs_cases (F.val c - q) with h4 | h4 <;> grind

theorem nearest_ge {F : Fmt} {q : Rat} {b c : Nat} (h : Nearest F q b) (hc : c ≤ F.inf) (hq : F.val c ≤ q) : c ≤ b := by
  apply Nat.le_of_not_lt
  intro hlt
  have h1 := h.near c hc
  have h2 := F.val_lt hlt
  rcases abs_cases (F.val b - q) with h3 | h3 <;> rcases abs_cases (F.val c - q) with h4 | h4 <;> grind

/-- below the middle of two neighbours -/
theorem nearest_le_mid {F : Fmt} {q : Rat} {b c : Nat} (h : Nearest F q b) (hc : c ≤ F.inf) (hq : q * 2 < F.val c + F.val (c + 1)) : b ≤ c := by
  apply Nat.le_of_not_lt
  intro hlt
  have h1 := h.near c hc
  have h2 := F.val_le hlt
  have h2' := F.val_succ c
  rcases abs_cases (F.val b - q) with h3 | h3 <;> rcases abs_cases (F.val c - q) with h4 | h4 <;> grind

/-- above the middle of two neighbours -/
theorem nearest_gt_mid {F : Fmt} {q : Rat} {b c : Nat} (h : Nearest F q b) (hc : c < F.inf) (hq : F.val c + F.val (c + 1) < q * 2) : c < b := by
  apply Nat.lt_of_not_le
  intro hlt
  have h1 := h.near (c + 1) hc
  have h2 := F.val_le hlt
  have h2' := F.val_succ c
  rcases abs_cases (F.val b - q) with h3 | h3 <;> rcases abs_cases (F.val (c + 1) - q) with h4 | h4 <;> grind

/-- the nearest number is at most half of the way from `q` to its neighbours -/
theorem nearest_bounds {F : Fmt} {q : Rat} {b : Nat} (h : Nearest F q b) :
    (b < F.inf → q * 2 ≤ F.val b + F.val (b + 1)) ∧ (∀ c, b = c + 1 → F.val c + F.val b ≤ q * 2) := by
  constructor
  · intro hb
    apply Rat.not_lt.1
    intro hq
    have := nearest_gt_mid h hb hq
    omega
  · rintro c rfl
    apply Rat.not_lt.1
    intro hq
    have := nearest_le_mid h (by have := h.le; omega) hq
    omega

theorem nearest_unique {F : Fmt} {q : Rat} {b c : Nat} (hb : Nearest F q b) (hc : Nearest F q c) : b = c := by
  have key : ∀ {b c : Nat}, Nearest F q b → Nearest F q c → ¬ b < c := by
    intro b c hb hc hlt
    have h0 := F.val_lt hlt
    have h1 := hb.near c hc.le
    have h2 := hc.near b hb.le
    have h3 := hb.even c hc.le (by omega) (Rat.le_antisymm h1 h2)
    have h4 := hc.even b hb.le (by omega) (Rat.le_antisymm h2 h1)
    have h5 := F.val_lt (show b < b + 1 by omega)
    have h6 := F.val_lt (show b + 1 < c by omega)
    have h7 := hb.near (b + 1) (by have := hc.le; omega)
    rcases abs_cases (F.val b - q) with h8 | h8 <;> rcases abs_cases (F.val c - q) with h9 | h9 <;>
      rcases abs_cases (F.val (b + 1) - q) with h10 | h10 <;> grind
  have h1 := key hb hc
  have h2 := key hc hb
  omega

theorem nearest_mono {F : Fmt} {q r : Rat} {b c : Nat} (hb : Nearest F q b) (hc : Nearest F r c) (h : q ≤ r) : b ≤ c := by
  apply Nat.le_of_not_lt
  intro hlt
  have h0 := F.val_lt hlt
  have h1 := hb.near c hc.le
  have h2 := hc.near b hb.le
  by_cases he : q = r
  · rw [he] at hb
    have := nearest_unique hb hc
    omega
  rcases abs_cases (F.val b - q) with h8 | h8 <;> rcases abs_cases (F.val c - q) with h9 | h9 <;>
    rcases abs_cases (F.val b - r) with h10 | h10 <;> rcases abs_cases (F.val c - r) with h11 | h11 <;> grind

/-- the nearest number by the middles to its neighbours -/
theorem nearest_iff {F : Fmt} {q : Rat} {b : Nat} : Nearest F q b ↔ b ≤ F.inf ∧
    (b < F.inf → q * 2 < F.val b + F.val (b + 1) ∨ q * 2 = F.val b + F.val (b + 1) ∧ b % 2 = 0) ∧
    (∀ c, b = c + 1 → F.val c + F.val b < q * 2 ∨ F.val c + F.val b = q * 2 ∧ b % 2 = 0) := by
  constructor
  · intro h
    obtain ⟨h1, h2⟩ := nearest_bounds h
    refine ⟨h.le, fun hb => ?_, ?_⟩
    · have h1 := h1 hb
      have h4 := F.val_succ b
      by_cases he : q * 2 = F.val b + F.val (b + 1)
      · refine .inr ⟨he, h.even (b + 1) hb (by omega) ?_⟩
        rcases abs_cases (F.val b - q) with h8 | h8 <;> rcases abs_cases (F.val (b + 1) - q) with h9 | h9 <;> grind
      · exact .inl (by grind)
    · rintro c rfl
      have h2 := h2 c rfl
      have h4 := F.val_succ c
      by_cases he : F.val c + F.val (c + 1) = q * 2
      · refine .inr ⟨he, h.even c (by have := h.le; omega) (by omega) ?_⟩
        rcases abs_cases (F.val c - q) with h8 | h8 <;> rcases abs_cases (F.val (c + 1) - q) with h9 | h9 <;> grind
      · exact .inl (by grind)
  · rintro ⟨h0, h1, h2⟩
    have up : ∀ c, c ≤ F.inf → b < c → (F.val b - q).abs ≤ (F.val c - q).abs ∧ ((F.val b - q).abs = (F.val c - q).abs → b % 2 = 0) := by
      intro c hc hlt
      have h3 := F.val_le hlt
      have h4 := F.val_succ b
      rcases h1 (by omega) with h1 | ⟨h1, h1'⟩ <;>
        rcases abs_cases (F.val b - q) with h8 | h8 <;> rcases abs_cases (F.val c - q) with h9 | h9 <;>
        (constructor <;> grind)
    have down : ∀ c, c ≤ F.inf → c < b → (F.val b - q).abs ≤ (F.val c - q).abs ∧ ((F.val b - q).abs = (F.val c - q).abs → b % 2 = 0) := by
      intro c hc hlt
      obtain ⟨a, rfl⟩ : ∃ a, b = a + 1 := ⟨b - 1, by omega⟩
      have h3 := F.val_le (show c ≤ a by omega)
      have h4 := F.val_succ a
      rcases h2 a rfl with h1 | ⟨h1, h1'⟩ <;>
        rcases abs_cases (F.val (a + 1) - q) with h8 | h8 <;> rcases abs_cases (F.val c - q) with h9 | h9 <;>
        (constructor <;> grind)
    refine ⟨h0, fun c hc => ?_, fun c hc hne he => ?_⟩
    · rcases Nat.lt_trichotomy b c with h | rfl | h
      · exact (up c hc h).1
      · exact Rat.le_refl
      · exact (down c hc h).1
    · rcases Nat.lt_trichotomy b c with h | rfl | h
      · exact (up c hc h).2 he
      · exact absurd rfl hne
      · exact (down c hc h).2 he

/-- the largest number that is not above `q` -/
theorem floor_exists (F : Fmt) {q : Rat} (hq : 0 ≤ q) (n : Nat) : ∃ b, b ≤ n ∧ F.val b ≤ q ∧ (b = n ∨ q < F.val (b + 1)) := by
  induction n with
  | zero => exact ⟨0, by omega, by rw [F.val_zero]; exact hq, .inl rfl⟩
  | succ n ih =>
    by_cases h : F.val (n + 1) ≤ q
    · exact ⟨n + 1, by omega, h, .inl rfl⟩
    · obtain ⟨b, h1, h2, h3⟩ := ih
      refine ⟨b, by omega, h2, .inr ?_⟩
      rcases h3 with rfl | h3
      · exact Rat.not_le.1 h
      · exact h3

theorem nearest_exists (F : Fmt) {q : Rat} (hq : 0 ≤ q) : ∃ b, Nearest F q b := by
  obtain ⟨b, h1, h2, h3⟩ := floor_exists F hq F.inf
  have low : ∀ b, F.val b ≤ q → ∀ c, b = c + 1 → F.val c + F.val b < q * 2 := by
    rintro b hb c rfl
    have := F.val_succ c
    grind
  rcases h3 with rfl | h3
  · exact ⟨_, nearest_iff.2 ⟨h1, fun h => absurd h (Nat.lt_irrefl _), fun c hc => .inl (low _ h2 c hc)⟩⟩
  by_cases hb : b = F.inf
  · exact ⟨b, nearest_iff.2 ⟨h1, fun h => absurd hb (by omega), fun c hc => .inl (low _ h2 c hc)⟩⟩
  have hs := F.val_succ b
  have hs' := F.val_succ (b + 1)
  by_cases h4 : q * 2 < F.val b + F.val (b + 1) ∨ q * 2 = F.val b + F.val (b + 1) ∧ b % 2 = 0
  · exact ⟨b, nearest_iff.2 ⟨h1, fun _ => h4, fun c hc => .inl (low _ h2 c hc)⟩⟩
  · refine ⟨b + 1, nearest_iff.2 ⟨by omega, fun _ => .inl (by grind), ?_⟩⟩
    intro c hc
    obtain rfl : b = c := by omega
    by_cases h5 : q * 2 = F.val b + F.val (b + 1)
    · refine .inr ⟨h5.symm, ?_⟩
      have : ¬ b % 2 = 0 := fun h => h4 (.inr ⟨h5, h⟩)
      omega
    · refine .inl ?_
      have : ¬ q * 2 < F.val b + F.val (b + 1) := fun h => h4 (.inl h)
      grind

/-- a number of the format is nearest to itself -/
theorem nearest_self {F : Fmt} {b : Nat} (hb : b ≤ F.inf) : Nearest F (F.val b) b := by
  rw [nearest_iff]
  refine ⟨hb, fun _ => .inl ?_, ?_⟩
  · have := F.val_succ b
    grind
  · rintro c rfl
    have := F.val_succ c
    exact .inl (by grind)

/-! ### the facts assumed elsewhere -/

theorem head_minus {neg : Bool} {u : Bytes} (h : ∀ c, u.head? = some c → c ≠ 0x2D) : ((sign neg ++ u).head? == some 0x2D) = neg := by
  cases neg with
  | true => rfl
  | false =>
    cases u with
    | nil => rfl
    | cons c u => simpa [sign] using h c rfl

theorem digit_notMinus {c : UInt8} (h : Digit c) : c ≠ 0x2D ∧ c ≠ 0x65 ∧ c ≠ 0x45 := by
  unfold Digit at h
  refine ⟨?_, ?_, ?_⟩ <;> (rintro rfl; revert h; decide)

theorem jint_facts {neg : Bool} {ip t : Bytes} (h : JInt neg ip t) :
    (t.head? == some 0x2D) = neg ∧ ShortExp t ∧ ∃ q, TextValue t q ∧ q.abs = (decVal ip : Rat) := by
  obtain ⟨hd, hne, -⟩ := intPart_digits h.1
  refine ⟨?_, ?_, ?_⟩
  · rw [h.2]
    refine head_minus fun c hc => (digit_notMinus (hd c ?_)).1
    cases ip with
    | nil => cases hc
    | cons x u => simp at hc; simp [hc]
  · intro body e sg d he hE _ _
    exfalso
    have hm : e ∈ t := by rw [he]; simp
    rw [h.2] at hm
    rcases List.mem_append.1 hm with hm | hm
    · cases neg <;> simp [sign] at hm
      subst hm
      revert hE; decide
    · have := digit_notMinus (hd e hm)
      rcases hE with hE | hE
      · exact this.2.1 hE
      · exact this.2.2 hE
  · have ht := TextValue.mk neg ip [] [] [] 0 hd (by intro c hc; cases hc) (.inl ⟨rfl, rfl⟩) (by simpa using hne) (.inl ⟨rfl, rfl⟩)
    rw [List.append_nil, List.append_nil, ← h.2] at ht
    refine ⟨_, ht, ?_⟩
    have e0 : (decVal [] : Rat) / (10 : Rat) ^ ([] : Bytes).length = 0 := by decide +kernel
    have e1 : (10 : Rat) ^ (0 : Int) = 1 := by decide +kernel
    rw [e0, e1]
    have hn : (0 : Rat) ≤ (decVal ip : Rat) := Rat.natCast_nonneg
    cases neg with
    | true =>
      rw [if_pos rfl, Rat.abs_of_nonpos (by grind)]
      grind
    | false =>
      rw [if_neg (by decide), Rat.abs_of_nonneg (by grind)]
      grind

theorem double_inf : double.inf = 0x7FF0000000000000 := by decide

/-- 2^64 as a float64 -/
theorem val_two64 : double.val 0x43F0000000000000 = 18446744073709551616 := by decide +kernel

theorem nat_notInf {n b : Nat} (h : Nearest double (n : Rat) b) (hn : n < 2 ^ 64) : b ≤ 0x43F0000000000000 := by
  refine nearest_le h (by decide) ?_
  rw [val_two64]
  have : (n : Rat) < ((2 ^ 64 : Nat) : Rat) := Rat.natCast_lt_natCast.2 hn
  have e : ((2 ^ 64 : Nat) : Rat) = 18446744073709551616 := by decide +kernel
  grind

theorem fneg_pack {b : Nat} (hb : b < 2 ^ 63) : fneg (pack false b) = pack true b := by
  unfold fneg pack
  apply BitVec.eq_of_toNat_eq
  have e : b ^^^ 2 ^ 63 = 2 ^ 63 + b := by
    apply Nat.eq_of_testBit_eq
    intro i
    have h := Nat.two_pow_add_eq_or_of_lt hb 1
    rw [Nat.mul_one] at h
    rw [h, Nat.testBit_xor, Nat.testBit_or, Nat.testBit_two_pow]
    by_cases hi : 63 = i
    · subst hi
      simp [Nat.testBit_lt_two_pow hb]
    · simp [hi]
  simp only [BitVec.toNat_xor, BitVec.toNat_ofNat, Bool.false_eq_true, if_false, if_true, Nat.zero_add]
  rw [Nat.mod_eq_of_lt (a := b) (by omega), Nat.mod_eq_of_lt (a := 2 ^ 63 + b) (by omega)]
  exact e

theorem ieee_intConv {E : Env} (h : Ieee E) : IntConv E := by
  intro neg ip t hj hlt
  obtain ⟨h1, h2, q, h3, h4⟩ := jint_facts hj
  obtain ⟨b, hb, hp⟩ := h.parse t q h3 h2
  obtain ⟨b', hb', hu⟩ := h.u64 (BitVec.ofNat 64 (decVal ip))
  rw [h4] at hb
  rw [show (BitVec.ofNat 64 (decVal ip)).toNat = decVal ip by simp; omega] at hb'
  obtain rfl := nearest_unique hb hb'
  have hle := nat_notInf hb hlt
  rw [hp, if_neg (by rw [double_inf]; omega), h1, hu]
  cases neg with
  | false => rfl
  | true => rw [if_pos rfl, fneg_pack (by omega)]

theorem ieee_farApart {E : Env} (h : Ieee E) : FarApart E := by
  intro ip t ip' t' hj hlt hj' hge he
  obtain ⟨h1, h2, q, h3, h4⟩ := jint_facts hj
  obtain ⟨h1', h2', q', h3', h4'⟩ := jint_facts hj'
  obtain ⟨b, hb, hp⟩ := h.parse t q h3 h2
  obtain ⟨b', hb', hp'⟩ := h.parse t' q' h3' h2'
  rw [h4] at hb
  rw [h4'] at hb'
  have hle := nat_notInf hb hlt
  have hgt : 0x43F0000000000000 < b' := by
    refine nearest_gt_mid hb' (by decide) ?_
    have e1 : double.val 0x43F0000000000000 + double.val 0x43F0000000000001 = 36893488147419107328 := by decide +kernel
    have : ((2 * 10 ^ 19 : Nat) : Rat) ≤ (decVal ip' : Rat) := Rat.natCast_le_natCast.2 hge
    have e : ((2 * 10 ^ 19 : Nat) : Rat) = 20000000000000000000 := by decide +kernel
    rw [e1]
    grind
  rw [hp, hp', if_neg (by rw [double_inf]; omega), h1, h1'] at he
  split at he
  · cases he
  · rename_i hi
    have hl := hb'.le
    rw [double_inf] at hl hi
    simp only [Option.some.injEq] at he
    have := congrArg BitVec.toNat he
    simp [pack] at this
    omega

end JV
