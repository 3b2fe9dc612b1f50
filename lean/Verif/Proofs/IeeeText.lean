import Verif.Proofs.IeeeEnv
import Verif.Props.FloatFmt
/-!
The texts of floats, read again; and rounding twice.
-/
namespace JV
open Spec

/-! ### exponents -/

theorem notE_of_digit {c : UInt8} (h : Digit c) : c ≠ 0x65 ∧ c ≠ 0x45 := by
  constructor <;> (rintro rfl; unfold Digit at h; exact absurd h (by decide))

theorem shortExp_of {pre d : Bytes} {e : UInt8} {sg : Bytes} (hpre : ∀ c ∈ pre, c ≠ 0x65 ∧ c ≠ 0x45) (hsg : sg = [] ∨ sg = [0x2B] ∨ sg = [0x2D])
    (hd : Digits d) (hlt : decVal d < 10 ^ 5) : ShortExp (pre ++ e :: sg ++ d) := by
  intro body e' sg' d' ht he' hsg' hd'
  have hr : ∀ c ∈ sg ++ d, c ≠ 0x65 ∧ c ≠ 0x45 := by
    intro c hc
    rcases List.mem_append.1 hc with hc | hc
    · rcases hsg with rfl | rfl | rfl <;> simp at hc <;> (subst hc; decide)
    · exact notE_of_digit (hd c hc)
  have hin : ∀ l : Bytes, (∀ c ∈ l, c ≠ 0x65 ∧ c ≠ 0x45) → e' ∉ l := by
    intro l hl h
    have := hl _ h
    rcases he' with h | h <;> simp [h] at this
  rw [List.append_assoc, List.append_assoc] at ht
  have key : sg ++ d = sg' ++ d' := by
    rcases List.append_eq_append_iff.1 ht with ⟨a, h1, h2⟩ | ⟨a, h1, h2⟩
    · match a, h2 with
      | [], h2 => simpa using (List.cons.inj h2).2
      | x :: a, h2 =>
        exfalso
        apply hin _ hr
        have := (List.cons.inj h2).2
        rw [show sg ++ d = sg.append d from rfl, show sg.append d = [].append (sg ++ d) from rfl] at *
        simp at this ⊢
        rw [← List.mem_append, this]
        simp
    · match a, h2 with
      | [], h2 => simpa using (List.cons.inj h2).2.symm
      | x :: a, h2 =>
        exfalso
        apply hin _ hpre
        rw [h1, (List.cons.inj h2).1]
        simp
  have hx : ∀ {c : UInt8} {u : Bytes}, Digits (c :: u) → c = 0x2B ∨ c = 0x2D → False := by
    intro c u h hc
    have := h c (by simp)
    unfold Digit at this
    rcases hc with rfl | rfl <;> exact absurd this (by decide)
  rcases hsg with rfl | rfl | rfl <;> rcases hsg' with rfl | rfl | rfl <;> simp at key
  · rwa [← key]
  · rw [key] at hd; exact (hx hd (.inl rfl)).elim
  · rw [key] at hd; exact (hx hd (.inr rfl)).elim
  · rw [← key] at hd'; exact (hx hd' (.inl rfl)).elim
  · rwa [← key]
  · rw [← key] at hd'; exact (hx hd' (.inr rfl)).elim
  · rwa [← key]

theorem shortExp_none {t : Bytes} (h : ∀ c ∈ t, c ≠ 0x65 ∧ c ≠ 0x45) : ShortExp t := by
  intro body e sg d ht he
  have := h e (by rw [ht]; simp)
  rcases he with h | h <;> simp [h] at this

theorem sign_notE (neg : Bool) : ∀ c ∈ sign neg, c ≠ 0x65 ∧ c ≠ 0x45 := by
  cases neg
  · intro c hc; cases hc
  · intro c hc; simp [sign] at hc; subst hc; decide

theorem notE_append {a b : Bytes} (ha : ∀ c ∈ a, c ≠ 0x65 ∧ c ≠ 0x45) (hb : ∀ c ∈ b, c ≠ 0x65 ∧ c ≠ 0x45) : ∀ c ∈ a ++ b, c ≠ 0x65 ∧ c ≠ 0x45 := by
  intro c hc
  rcases List.mem_append.1 hc with h | h
  · exact ha c h
  · exact hb c h

theorem notE_digits {a : Bytes} (h : Digits a) : ∀ c ∈ a, c ≠ 0x65 ∧ c ≠ 0x45 := fun c hc => notE_of_digit (h c hc)

theorem notE_frac {a : Bytes} (p : Prop) [Decidable p] (h : Digits a) : ∀ c ∈ (if p then 0x2E :: a else []), c ≠ 0x65 ∧ c ≠ 0x45 := by
  split
  · intro c hc
    rcases List.mem_cons.1 hc with rfl | hc
    · decide
    · exact notE_of_digit (h c hc)
  · intro c hc; cases hc

/-- the exponents in the texts of floats are short -/
theorem floatText_shortExp {O : DigitFn} {w : Bool} {f : BitVec 64} (h : Shortest O w f) : ShortExp (newFloatText O w f) := by
  rw [newFloatText_eq h]
  have hg := h.good
  generalize shortest O w f = g at *
  split
  · rw [fmtE_eq]
    obtain ⟨x, h1, h2, -, h4⟩ := fmtExp_eq (if g.d = [] then 0 else g.dp - 1)
    rw [h1]
    have hv := h4 (by split <;> have := hg.2.2.2 <;> omega)
    have hb : decVal x < 10 ^ 5 := by
      rw [hv]
      split <;> have := hg.2.2.2 <;> omega
    have := shortExp_of (e := 0x65) (pre := sign f.msb ++ [g.d.headD 0x30] ++ (if max ((g.d.length : Int) - 1) 0 > 0 then 0x2E :: eFrac g (max ((g.d.length : Int) - 1) 0).toNat else []))
      (sg := [if (if g.d = [] then 0 else g.dp - 1) < 0 then 0x2D else 0x2B]) (d := x)
      (notE_append (notE_append (sign_notE _) (notE_digits (fun c hc => by rw [List.mem_singleton.1 hc]; exact headD_digit hg.1))) (notE_frac _ (eFrac_digits hg.1 _)))
      (by by_cases hx : (if g.d = [] then 0 else g.dp - 1) < 0 <;> simp [hx]) h2 hb
    simpa using this
  · rw [fmtF_eq]
    exact shortExp_none (notE_append (notE_append (sign_notE _) (notE_digits (fInt_digits hg.1)))
      (notE_frac _ (digits_take (digits_append (fPad_digits hg.1) (digits_replicate _)) _)))

theorem floatText_head {O : DigitFn} {w : Bool} {f : BitVec 64} (h : Shortest O w f) : ((newFloatText O w f).head? == some 0x2D) = f.msb := by
  rw [newFloatText_eq h]
  have hg := h.good
  generalize shortest O w f = g at *
  split
  · rw [fmtE_eq, List.append_assoc, List.append_assoc]
    refine head_minus fun c hc => ?_
    have hc : List.headD g.d 0x30 = c := by simpa using hc
    rw [← hc]
    exact (digit_notMinus (headD_digit hg.1)).1
  · rw [fmtF_eq, List.append_assoc]
    refine head_minus fun c hc => ?_
    have hi := intPart_digits (fInt_intPart hg)
    cases hf : fInt g with
    | nil => exact absurd hf hi.2.1
    | cons x u =>
      rw [hf] at hc hi
      simp at hc
      exact (digit_notMinus (hi.1 c (by simp [hc]))).1

theorem pack_magnitude (f : BitVec 64) : pack f.msb (magnitude f) = f := by
  apply BitVec.eq_of_toNat_eq
  unfold pack magnitude
  rw [BitVec.toNat_ofNat, BitVec.msb_eq_decide]
  have := f.isLt
  by_cases h : 2 ^ 63 ≤ f.toNat
  · simp [h]; omega
  · simp [h]; omega

theorem digitsValue_abs (neg : Bool) (g : FDigits) : (digitsValue neg g).abs = digitsValue false g := by
  rw [digitsValue_false]
  unfold digitsValue
  rw [Rat.mul_assoc]
  exact abs_sign neg (Rat.mul_nonneg Rat.natCast_nonneg (Rat.le_of_lt (ten_pos _)))

theorem digitsValue_sign (neg : Bool) (g : FDigits) : digitsValue neg g = (if neg then -1 else 1) * digitsValue false g := by
  rw [digitsValue_false]
  unfold digitsValue
  rw [Rat.mul_assoc]

/-- ParseFloat reads the text of a float as that float -/
theorem parse_floatText {E : Env} {O : DigitFn} (hE : Ieee E) (hO : GoDigits O) {f : BitVec 64} (hf : magnitude f < double.inf) :
    E.parseFloat (newFloatText O false f) = some f := by
  have hs := shortest_double hO hf
  obtain ⟨b, h1, h2⟩ := hE.parse _ _ (C60_value O false f hs).2 (floatText_shortExp hs)
  rw [digitsValue_abs] at h1
  have hb := nearest_unique h1 (hO.double f hf).reads
  subst hb
  rw [h2, if_neg (by omega), floatText_head hs, pack_magnitude]

/-- and that of a float32 as the nearest float64 -/
theorem parse_floatText32 {E : Env} {O : DigitFn} (hE : Ieee E) {f : BitVec 64} (hs : Shortest O true f) :
    ∃ b, Nearest double (digitsValue false (shortest O true f)) b ∧
      E.parseFloat (newFloatText O true f) = if b = double.inf then none else some (pack f.msb b) := by
  obtain ⟨b, h1, h2⟩ := hE.parse _ _ (C60_value O true f hs).2 (floatText_shortExp hs)
  rw [digitsValue_abs] at h1
  rw [floatText_head hs] at h2
  exact ⟨b, h1, h2⟩

/-! ### which numbers are floats -/

theorem _root_.Spec.Fmt.units_exists (F : Fmt) (k : Nat) : ∀ m : Nat, m < 2 ^ (F.p + 1) → ∃ b, F.units b = m * 2 ^ k := by
  induction k with
  | zero =>
    intro m hm
    by_cases h : m < 2 ^ F.p
    · exact ⟨m, by unfold Fmt.units; rw [if_pos h]; simp⟩
    · refine ⟨m, ?_⟩
      unfold Fmt.units
      rw [if_neg h]
      rw [Nat.pow_succ] at hm
      have h1 : m / 2 ^ F.p = 1 := Nat.div_eq_of_lt_le (by omega) (by omega)
      have h2 := Nat.div_add_mod m (2 ^ F.p)
      rw [h1] at h2
      rw [h1]
      simp
      omega
  | succ k ih =>
    intro m hm
    by_cases h : m < 2 ^ F.p
    · obtain ⟨b, hb⟩ := ih (2 * m) (by rw [Nat.pow_succ]; omega)
      exact ⟨b, by rw [hb, Nat.pow_succ]; rw [Nat.mul_comm 2 m, Nat.mul_assoc, Nat.mul_comm 2]⟩
    · refine ⟨(k + 2) * 2 ^ F.p + (m - 2 ^ F.p), ?_⟩
      rw [Nat.pow_succ] at hm
      have hp := Nat.two_pow_pos F.p
      have hr : m - 2 ^ F.p < 2 ^ F.p := by omega
      have hge : 2 ^ F.p ≤ (k + 2) * 2 ^ F.p := Nat.le_mul_of_pos_left _ (by omega)
      unfold Fmt.units
      rw [if_neg (by omega), Nat.mul_comm (k + 2), Nat.mul_add_mod, Nat.mod_eq_of_lt hr, Nat.mul_add_div hp, Nat.div_eq_of_lt hr]
      congr 1
      omega

theorem _root_.Spec.Fmt.units_step (F : Fmt) (b : Nat) : ∃ s k, s < 2 ^ (F.p + 1) ∧ F.units b = s * 2 ^ k ∧ F.units (b + 1) = (s + 1) * 2 ^ k := by
  have hp := Nat.two_pow_pos F.p
  have hdm := Nat.div_add_mod b (2 ^ F.p)
  have hml := Nat.mod_lt b hp
  by_cases h : b < 2 ^ F.p
  · refine ⟨b, 0, by rw [Nat.pow_succ]; omega, by unfold Fmt.units; rw [if_pos h]; simp, ?_⟩
    unfold Fmt.units
    by_cases h1 : b + 1 < 2 ^ F.p
    · rw [if_pos h1]; simp
    · rw [if_neg h1, show b + 1 = 2 ^ F.p by omega, Nat.mod_self, Nat.div_self hp, Nat.add_zero]
  · have hq : 1 ≤ b / 2 ^ F.p := Nat.div_pos (by omega) hp
    refine ⟨2 ^ F.p + b % 2 ^ F.p, b / 2 ^ F.p - 1, by rw [Nat.pow_succ]; omega, by unfold Fmt.units; rw [if_neg h], ?_⟩
    unfold Fmt.units
    rw [if_neg (by omega)]
    by_cases h1 : b % 2 ^ F.p + 1 < 2 ^ F.p
    · have e : b + 1 = 2 ^ F.p * (b / 2 ^ F.p) + (b % 2 ^ F.p + 1) := by omega
      have e1 : (b + 1) % 2 ^ F.p = b % 2 ^ F.p + 1 := by rw [e, Nat.mul_add_mod, Nat.mod_eq_of_lt h1]
      have e2 : (b + 1) / 2 ^ F.p = b / 2 ^ F.p := by rw [e, Nat.mul_add_div hp, Nat.div_eq_of_lt h1]; simp
      rw [e1, e2]; rfl
    · have e : b + 1 = 2 ^ F.p * (b / 2 ^ F.p + 1) := by rw [Nat.mul_add]; omega
      have e1 : (b + 1) % 2 ^ F.p = 0 := by rw [e]; simp
      have e2 : (b + 1) / 2 ^ F.p = b / 2 ^ F.p + 1 := by rw [e, Nat.mul_div_cancel_left _ hp]
      rw [e1, e2, show b / 2 ^ F.p + 1 - 1 = (b / 2 ^ F.p - 1) + 1 by omega, Nat.pow_succ]
      rw [show 2 ^ F.p + b % 2 ^ F.p + 1 = 2 ^ F.p * 2 by omega, Nat.add_zero, Nat.mul_assoc, Nat.mul_comm 2]

/-- the number half way between two float32 is a float64 -/
theorem mid_double {a : Nat} (ha : a ≤ single.inf) : ∃ d, d < double.inf ∧ double.val d * 2 = single.val a + single.val (a + 1) := by
  obtain ⟨s, k, h1, h2, h3⟩ := single.units_step a
  have h1 : s < 2 ^ 24 := h1
  obtain ⟨n, hn⟩ : ∃ n, n = 924 := ⟨_, rfl⟩
  obtain ⟨d, hd⟩ := double.units_exists (k + n) (2 * s + 1) (by show _ < 2 ^ 53; omega)
  have e : double.val d * 2 = single.val a + single.val (a + 1) := by
    have e1 : ((2 ^ (double.bias + double.p - 1) : Nat) : Rat) = ((2 ^ (single.bias + single.p - 1) : Nat) : Rat) * ((2 ^ n : Nat) : Rat) * 2 := by subst hn; decide +kernel
    have hp := single.one_pos
    have hq : (0 : Rat) < ((2 ^ n : Nat) : Rat) := Rat.natCast_pos.2 (Nat.two_pow_pos _)
    have v1 := double.val_mul d
    have v2 := single.val_mul a
    have v3 := single.val_mul (a + 1)
    rw [hd, e1] at v1
    rw [h2] at v2
    rw [h3] at v3
    have e2 : (((2 * s + 1) * 2 ^ (k + n) : Nat) : Rat) = ((s * 2 ^ k : Nat) : Rat) * ((2 ^ n : Nat) : Rat) + (((s + 1) * 2 ^ k : Nat) : Rat) * ((2 ^ n : Nat) : Rat) := by
      rw [← Rat.natCast_mul, ← Rat.natCast_mul, ← Rat.natCast_add]
      congr 1
      rw [Nat.pow_add, ← Nat.add_mul, ← Nat.add_mul, Nat.mul_assoc]
      congr 1
      omega
    rw [e2, ← v2, ← v3] at v1
    have hpq := Rat.mul_pos hp hq
    refine Rat.le_antisymm (Rat.le_of_mul_le_mul_right (c := ((2 ^ (single.bias + single.p - 1) : Nat) : Rat) * ((2 ^ n : Nat) : Rat)) ?_ hpq)
      (Rat.le_of_mul_le_mul_right (c := ((2 ^ (single.bias + single.p - 1) : Nat) : Rat) * ((2 ^ n : Nat) : Rat)) ?_ hpq) <;> grind
  refine ⟨d, ?_, e⟩
  apply Nat.lt_of_not_le
  intro hle
  have h4 := double.val_le hle
  have h5 := single.val_le ha
  have h6 := single.val_le (show a + 1 ≤ single.inf + 1 by omega)
  have h7 : single.val single.inf + single.val (single.inf + 1) < double.val double.inf * 2 := by decide +kernel
  grind

/-! ### rounding twice -/

theorem nearest_mid {F : Fmt} {x : Rat} {a : Nat} (ha : a < F.inf) (hx : x * 2 = F.val a + F.val (a + 1)) : Nearest F x (if a % 2 = 0 then a else a + 1) := by
  rw [nearest_iff]
  by_cases h : a % 2 = 0
  · rw [if_pos h]
    refine ⟨by omega, fun _ => .inr ⟨hx, h⟩, ?_⟩
    rintro c rfl
    have h1 := F.val_succ c
    have h2 := F.val_succ (c + 1)
    exact .inl (by grind)
  · rw [if_neg h]
    refine ⟨by omega, fun _ => .inl ?_, ?_⟩
    · have h1 := F.val_succ a
      have h2 := F.val_succ (a + 1)
      grind
    · intro c hc
      obtain rfl : a = c := by omega
      exact .inr ⟨hx.symm, by omega⟩

/-- Rounding to float64 and then to float32 is rounding to float32, unless the float64 is half way between two float32 and the number is not. -/
theorem round_twice {q : Rat} {b c c' : Nat} (hb : Nearest double q b) (hc : Nearest single (double.val b) c) (hc' : Nearest single q c') :
    c = c' ↔ ∀ a, a < single.inf → double.val b * 2 = single.val a + single.val (a + 1) → if a % 2 = 0 then q ≤ double.val b else double.val b ≤ q := by
  have hmid : ∀ a, a < single.inf → ∃ d, d ≤ double.inf ∧ double.val d * 2 = single.val a + single.val (a + 1) := by
    intro a ha
    obtain ⟨d, h1, h2⟩ := mid_double (a := a) (by omega)
    exact ⟨d, by omega, h2⟩
  have hn := nearest_bounds hc
  have hn' := nearest_bounds hc'
  have hi' := nearest_iff.1 hc'
  have hi := nearest_iff.1 hc
  constructor
  · rintro rfl a ha hm
    -- `c` is `a` or `a + 1`, whichever is even
    have h1 := nearest_unique hc (nearest_mid ha hm)
    by_cases h : a % 2 = 0
    · rw [if_pos h] at h1 ⊢
      subst h1
      have := hn'.1 ha
      grind
    · rw [if_neg h] at h1 ⊢
      have := hn'.2 a h1
      rw [h1] at this
      grind
  · intro h
    rcases Nat.lt_trichotomy c c' with hlt | rfl | hlt
    · exfalso
      have hci : c < single.inf := by have := hi'.1; omega
      obtain ⟨e, rfl⟩ : ∃ e, c' = e + 1 := ⟨c' - 1, by omega⟩
      have h1 := hn'.2 e rfl
      have h2 := single.val_le (show c ≤ e by omega)
      have h3 := single.val_le (show c + 1 ≤ e + 1 by omega)
      obtain ⟨d, hd, hdv⟩ := hmid c hci
      have h4 := double.val_le (nearest_ge hb hd (show double.val d ≤ q by grind))
      have h5 := hn.1 hci
      have h6 : double.val b * 2 = single.val c + single.val (c + 1) := Rat.le_antisymm h5 (by grind)
      have h7 := h c hci h6
      rcases hi.2.1 hci with h8 | ⟨-, h8⟩
      · grind
      · rw [if_pos h8] at h7
        have := nearest_unique hc' (nearest_mid (x := q) hci (Rat.le_antisymm (by grind) (by grind)))
        rw [if_pos h8] at this
        omega
    · rfl
    · exfalso
      have hci : c' < single.inf := by have := hi.1; omega
      obtain ⟨e, rfl⟩ : ∃ e, c = e + 1 := ⟨c - 1, by omega⟩
      have h1 := hn.2 e rfl
      have h2 := single.val_le (show c' ≤ e by omega)
      have h3 := single.val_le (show c' + 1 ≤ e + 1 by omega)
      obtain ⟨d, hd, hdv⟩ := hmid c' hci
      have h5 := hn'.1 hci
      have h4 := double.val_le (nearest_le hb hd (show q ≤ double.val d by grind))
      have h6 : double.val b * 2 = single.val c' + single.val (c' + 1) := Rat.le_antisymm (by grind) (by grind)
      have h7 := h c' hci h6
      have h8 := nearest_unique hc (nearest_mid hci h6)
      by_cases h9 : c' % 2 = 0
      · rw [if_pos h9] at h8
        omega
      · rw [if_neg h9] at h7
        rcases hi'.2.1 hci with h10 | ⟨-, h10⟩
        · grind
        · exact h9 h10

end JV
