import Verif.Spec.FloatFmt
import Verif.Proofs.Decimal
/-! The layout of digits by strconv. -/
namespace JV
open Spec

theorem chDigit_digit (n : Nat) : Digit (chDigit n) ∧ (chDigit n).toNat - 0x30 = n % 10 := by
  have : n % 10 < 10 := Nat.mod_lt _ (by decide)
  unfold chDigit Digit
  rw [UInt8.toNat_ofNat']
  omega

theorem digit30 : Digit 0x30 := by unfold Digit; decide

theorem digits_replicate (n : Nat) : Digits (List.replicate n 0x30) := by
  intro c hc
  rw [(List.mem_replicate.1 hc).2]
  exact digit30

theorem digits_append {a b : Bytes} (ha : Digits a) (hb : Digits b) : Digits (a ++ b) := by
  intro c hc
  rcases List.mem_append.1 hc with h | h
  · exact ha c h
  · exact hb c h

theorem decVal_replicate (n : Nat) : decVal (List.replicate n 0x30) = 0 := by
  induction n with
  | zero => rfl
  | succ n ih =>
    rw [List.replicate_succ, show (0x30 : UInt8) :: List.replicate n 0x30 = [0x30] ++ List.replicate n 0x30 from rfl, decVal_cat, ih]
    simp [decVal]

theorem fmtExp_eq (x : Int) : ∃ ds, fmtExp x = (if x < 0 then 0x2D else 0x2B) :: ds ∧ Digits ds ∧ 2 ≤ ds.length ∧
    (x.natAbs < 1000 → decVal ds = x.natAbs) := by
  generalize hn : x.natAbs = n
  have h1 := chDigit_digit n
  have h2 := chDigit_digit (n / 10)
  have h3 := chDigit_digit (n / 100)
  by_cases h10 : n < 10
  · refine ⟨[0x30, chDigit n], ?_, ?_, by simp, ?_⟩
    · simp [fmtExp, hn, h10]
    · intro c hc; simp at hc; rcases hc with rfl | rfl; exact digit30; exact h1.1
    · intro _; simp [decVal]; omega
  · by_cases h100 : n < 100
    · refine ⟨[chDigit (n / 10), chDigit n], ?_, ?_, by simp, ?_⟩
      · simp [fmtExp, hn, h10, h100]
      · intro c hc; simp at hc; rcases hc with rfl | rfl; exact h2.1; exact h1.1
      · intro _; simp [decVal]; omega
    · refine ⟨[chDigit (n / 100), chDigit (n / 10), chDigit n], ?_, ?_, by simp, ?_⟩
      · simp [fmtExp, hn, h10, h100]
      · intro c hc; simp at hc; rcases hc with rfl | rfl | rfl; exact h3.1; exact h2.1; exact h1.1
      · intro _; simp [decVal]; omega

/-- the digits after the dot written by `fmtE` -/
def eFrac (g : FDigits) (p : Nat) : Bytes := (g.d.drop 1).take p ++ List.replicate (p - ((g.d.drop 1).take p).length) 0x30

/-- the digits before the dot written by `fmtF` -/
def fInt (g : FDigits) : Bytes :=
  if g.dp > 0 then g.d.take g.dp.toNat ++ List.replicate (g.dp.toNat - (g.d.take g.dp.toNat).length) 0x30 else [0x30]

/-- the digits after the dot, as long as there are any -/
def fPad (g : FDigits) : Bytes := List.replicate (-g.dp).toNat 0x30 ++ g.d.drop g.dp.toNat

theorem eFrac_len (g : FDigits) (p : Nat) : (eFrac g p).length = p := by
  simp only [eFrac, List.length_append, List.length_replicate, List.length_take]
  omega

theorem digits_take {a : Bytes} (h : Digits a) (n : Nat) : Digits (a.take n) := fun c hc => h c (List.mem_of_mem_take hc)
theorem digits_drop {a : Bytes} (h : Digits a) (n : Nat) : Digits (a.drop n) := fun c hc => h c (List.mem_of_mem_drop hc)

theorem eFrac_digits {g : FDigits} (h : Digits g.d) (p : Nat) : Digits (eFrac g p) :=
  digits_append (digits_take (digits_drop h 1) p) (digits_replicate _)

theorem fracs_eq (g : FDigits) (p : Nat) : (List.range p).map (fracDigit g) = (fPad g ++ List.replicate p 0x30).take p := by
  apply List.ext_getElem?
  intro i
  by_cases hi : i < p
  · rw [List.getElem?_map, List.getElem?_range hi, List.getElem?_take_of_lt hi]
    simp only [Option.map_some, fracDigit, fPad]
    by_cases h0 : 0 ≤ g.dp + i
    · rw [if_pos h0]
      by_cases hp : (-g.dp).toNat ≤ i
      · rw [List.append_assoc, List.getElem?_append_right (by simpa using hp)]
        simp only [List.length_replicate]
        have e : (g.dp + i).toNat = g.dp.toNat + (i - (-g.dp).toNat) := by omega
        rw [e, List.getElem?_append]
        split
        · rename_i hl
          rw [List.getElem?_drop]
          simp only [List.length_drop] at hl
          rw [List.getElem?_eq_getElem (by omega)]
          rfl
        · rename_i hl
          simp only [List.length_drop] at hl
          rw [List.getElem?_eq_none (by omega), List.getElem?_replicate, if_pos (by simp only [List.length_drop]; omega)]
          rfl
      · omega
    · rw [if_neg h0, List.append_assoc, List.getElem?_append_left (by simp; omega), List.getElem?_replicate, if_pos (by omega)]
  · rw [List.getElem?_eq_none (by simp; omega), List.getElem?_eq_none (by simp; omega)]

theorem fPad_digits {g : FDigits} (h : Digits g.d) : Digits (fPad g) := digits_append (digits_replicate _) (digits_drop h _)

theorem fInt_digits {g : FDigits} (h : Digits g.d) : Digits (fInt g) := by
  unfold fInt
  split
  · exact digits_append (digits_take h _) (digits_replicate _)
  · intro c hc; simp at hc; subst hc; exact digit30

theorem fInt_intPart {g : FDigits} (h : GoodDigits g) : IntPart (fInt g) := by
  unfold fInt
  by_cases hp : g.dp > 0
  · rw [if_pos hp]
    match hd : g.d with
    | [] => have := h.2.2.1 hd; omega
    | c :: u =>
      have hc : c ≠ 0x30 := fun hc => h.2.1 u (by rw [hd, hc])
      have hdig : Digits (c :: u) := hd ▸ h.1
      have h1 := hdig c (by simp)
      have e : g.dp.toNat = (g.dp.toNat - 1) + 1 := by omega
      rw [e, List.take_succ_cons]
      refine .inr ⟨c, _, rfl, ?_, h1.2, digits_append (digits_take (fun x hx => hdig x (by simp [hx])) _) (digits_replicate _)⟩
      have := h1.1
      have : c.toNat ≠ 0x30 := fun h => hc (UInt8.toNat_inj.1 h)
      omega
  · rw [if_neg hp]; exact .inl rfl

theorem headD_digit {d : Bytes} (h : Digits d) : Digit (d.headD 0x30) := by
  cases d with
  | nil => exact digit30
  | cons c u => exact h c (by simp)

theorem intPart_one {c : UInt8} (h : Digit c) : IntPart [c] := by
  by_cases hc : c = 0x30
  · exact .inl (by rw [hc])
  · refine .inr ⟨c, [], rfl, ?_, h.2, by simp [Digits]⟩
    have : c.toNat ≠ 0x30 := fun h => hc (UInt8.toNat_inj.1 h)
    have := h.1
    omega

theorem fmtE_eq (neg : Bool) (g : FDigits) (prec : Int) (fmt : UInt8) :
    fmtE neg g prec fmt = sign neg ++ [g.d.headD 0x30] ++ (if prec > 0 then 0x2E :: eFrac g prec.toNat else []) ++
      fmt :: fmtExp (if g.d = [] then 0 else g.dp - 1) := by
  unfold fmtE eFrac sign
  by_cases h : prec > 0
  · simp [h]
  · simp [h]

theorem fmtF_eq (neg : Bool) (g : FDigits) (prec : Int) :
    fmtF neg g prec = sign neg ++ fInt g ++ (if prec > 0 then 0x2E :: (fPad g ++ List.replicate prec.toNat 0x30).take prec.toNat else []) := by
  unfold fmtF fInt sign
  rw [fracs_eq]

/-- `%e` is a JSON number with a digit, `prec` digits after the dot and an exponent -/
theorem fmtE_jfloat (neg : Bool) {g : FDigits} (h : Digits g.d) (prec : Int) {fmt : UInt8} (hf : fmt = 0x65 ∨ fmt = 0x45) :
    JFloat neg [g.d.headD 0x30] (fmtE neg g prec fmt) := by
  rw [fmtE_eq]
  obtain ⟨ds, h1, h2, h3, -⟩ := fmtExp_eq (if g.d = [] then 0 else g.dp - 1)
  refine ⟨if prec > 0 then 0x2E :: eFrac g prec.toNat else [], fmt :: fmtExp (if g.d = [] then 0 else g.dp - 1), intPart_one (headD_digit h), ?_, .inr ?_, by simp, rfl⟩
  · split
    · refine .inr ⟨_, rfl, ?_, eFrac_digits h _⟩
      intro h0
      have := eFrac_len g prec.toNat
      rw [h0] at this
      simp at this
      omega
    · exact .inl rfl
  · rw [h1]
    refine ⟨fmt, [if (if g.d = [] then 0 else g.dp - 1) < 0 then 0x2D else 0x2B], ds, by simp, hf, ?_, ?_, h2⟩
    · by_cases h : (if g.d = [] then 0 else g.dp - 1) < 0
      · simp [h]
      · simp [h]
    · intro h0; simp [h0] at h3

/-- `%f` is a JSON number -/
theorem fmtF_jnum (neg : Bool) {g : FDigits} (h : GoodDigits g) (prec : Int) :
    (prec ≤ 0 ∧ JInt neg (fInt g) (fmtF neg g prec)) ∨ (0 < prec ∧ JFloat neg (fInt g) (fmtF neg g prec)) := by
  rw [fmtF_eq]
  by_cases hp : prec > 0
  · right
    rw [if_pos hp]
    refine ⟨hp, 0x2E :: (fPad g ++ List.replicate prec.toNat 0x30).take prec.toNat, [], fInt_intPart h, .inr ⟨_, rfl, ?_, ?_⟩, .inl rfl, by simp, by simp⟩
    · intro h0
      have := congrArg List.length h0
      simp only [List.length_take, List.length_append, List.length_replicate, List.length_nil] at this
      omega
    · exact digits_take (digits_append (fPad_digits h.1) (digits_replicate _)) _
  · left
    rw [if_neg hp]
    exact ⟨by omega, fInt_intPart h, by simp⟩

/-! ### values -/

theorem ten_ne (n : Nat) : (10 : Rat) ^ n ≠ 0 := by
  intro h0
  have := ten_pos (n : Int)
  rw [Rat.zpow_natCast, h0] at this
  exact absurd this (by decide)

/-- the value of a text, with all digits together -/
theorem textValue_cat (neg : Bool) (ip fp ds ep : Bytes) (x : Int) (h1 : Digits ip) (h2 : Digits ds) (h3 : fp = [] ∧ ds = [] ∨ fp = 0x2E :: ds) (h4 : ip ++ ds ≠ [])
    (h5 : ep = [] ∧ x = 0 ∨ ∃ e sg d, ep = e :: sg ++ d ∧ (e = 0x65 ∨ e = 0x45) ∧ Digits d ∧ d ≠ [] ∧
        ((sg = [] ∨ sg = [0x2B]) ∧ x = decVal d ∨ sg = [0x2D] ∧ x = - (decVal d : Int))) :
    TextValue (sign neg ++ ip ++ fp ++ ep) ((if neg then -1 else 1) * (decVal (ip ++ ds) : Rat) * (10 : Rat) ^ (x - ds.length)) := by
  have h := TextValue.mk neg ip fp ds ep x h1 h2 h3 h4 h5
  have e : ((if neg then -1 else 1) * ((decVal ip : Rat) + (decVal ds : Rat) / (10 : Rat) ^ ds.length) * (10 : Rat) ^ x) =
      ((if neg then -1 else 1) * (decVal (ip ++ ds) : Rat) * (10 : Rat) ^ (x - ds.length)) := by
    have h10 := ten_ne ds.length
    rw [decVal_cat, show x - (ds.length : Int) = x + -(ds.length : Int) by omega, Rat.zpow_add (by decide), Rat.zpow_neg, Rat.zpow_natCast]
    rw [Rat.natCast_add, Rat.natCast_mul, Rat.natCast_pow, show ((10 : Nat) : Rat) = 10 from rfl]
    generalize (10 : Rat) ^ ds.length = y at *
    generalize (10 : Rat) ^ x = z at *
    generalize (decVal ip : Rat) = a
    generalize (decVal ds : Rat) = b
    generalize (if neg = true then (-1 : Rat) else 1) = g
    grind
  rwa [e] at h

/-- trailing zeros and the exponent cancel out -/
theorem value_shift (neg : Bool) (g : FDigits) (a : Bytes) (z : Nat) (x : Int) (h : decVal a = decVal g.d * 10 ^ z) (hx : g.d ≠ [] → x + z = g.dp - g.d.length) :
    (if neg then -1 else 1 : Rat) * (decVal a : Rat) * (10 : Rat) ^ x = digitsValue neg g := by
  unfold digitsValue
  by_cases h0 : g.d = []
  · rw [h, h0]
    simp only [show decVal [] = 0 from rfl, Nat.zero_mul]
    rw [show ((0 : Nat) : Rat) = 0 from rfl]
    simp only [Rat.mul_zero, Rat.zero_mul]
  · rw [← hx h0, h, Rat.natCast_mul, Rat.natCast_pow, Rat.zpow_add (by decide), Rat.zpow_natCast, show ((10 : Nat) : Rat) = 10 from rfl]
    generalize (10 : Rat) ^ z = y at *
    generalize (10 : Rat) ^ x = w at *
    generalize (decVal g.d : Rat) = b
    generalize (if neg = true then (-1 : Rat) else 1) = s
    grind

theorem fmtE_value (neg : Bool) {g : FDigits} (h : GoodDigits g) (prec : Int) {fmt : UInt8} (hf : fmt = 0x65 ∨ fmt = 0x45) (hp : (g.d.length : Int) ≤ max prec 0 + 1) :
    TextValue (fmtE neg g prec fmt) (digitsValue neg g) := by
  rw [fmtE_eq]
  obtain ⟨ds, h1, h2, h3, h4⟩ := fmtExp_eq (if g.d = [] then 0 else g.dp - 1)
  have hx : ∃ e sg d, fmt :: fmtExp (if g.d = [] then 0 else g.dp - 1) = e :: sg ++ d ∧ (e = 0x65 ∨ e = 0x45) ∧ Digits d ∧ d ≠ [] ∧
      ((sg = [] ∨ sg = [0x2B]) ∧ (if g.d = [] then 0 else g.dp - 1) = decVal d ∨ sg = [0x2D] ∧ (if g.d = [] then 0 else g.dp - 1) = - (decVal d : Int)) := by
    have h5 := h4 (by have := h.2.2.2; split <;> omega)
    refine ⟨fmt, [if (if g.d = [] then 0 else g.dp - 1) < 0 then 0x2D else 0x2B], ds, by rw [h1]; simp, hf, h2, by intro h0; simp [h0] at h3, ?_⟩
    generalize (if g.d = [] then 0 else g.dp - 1) = x at *
    by_cases hx : x < 0
    · exact .inr ⟨by simp [hx], by omega⟩
    · exact .inl ⟨by simp [hx], by omega⟩
  have hlen : ∀ p : Nat, (g.d.length : Int) ≤ p + 1 → decVal ([g.d.headD 0x30] ++ eFrac g p) = decVal g.d * 10 ^ (p + 1 - g.d.length) := by
    intro p hp
    have e : (g.d.drop 1).take p = g.d.drop 1 := List.take_of_length_le (by simp; omega)
    unfold eFrac
    rw [e, ← List.append_assoc, decVal_cat _ (List.replicate _ _), decVal_replicate]
    cases hd : g.d with
    | nil => simp [decVal]
    | cons c u =>
      simp only [List.headD_cons, List.drop_succ_cons, List.drop_zero, List.length_replicate, List.length_cons, Nat.add_zero, List.singleton_append]
      congr 2
      omega
  by_cases hpos : prec > 0
  · rw [if_pos hpos]
    have hv := textValue_cat neg [g.d.headD 0x30] (0x2E :: eFrac g prec.toNat) (eFrac g prec.toNat) _ _ (by intro c hc; rw [List.mem_singleton.1 hc]; exact headD_digit h.1)
      (eFrac_digits h.1 _) (.inr rfl) (by simp) (.inr hx)
    rwa [value_shift neg g _ (prec.toNat + 1 - g.d.length) _ (hlen _ (by omega))] at hv
    intro hne
    rw [if_neg hne, eFrac_len]
    omega
  · rw [if_neg hpos]
    have hv := textValue_cat neg [g.d.headD 0x30] [] [] _ _ (by intro c hc; rw [List.mem_singleton.1 hc]; exact headD_digit h.1)
      (by simp [Digits]) (.inl ⟨rfl, rfl⟩) (by simp) (.inr hx)
    rwa [value_shift neg g _ (0 + 1 - g.d.length) _ ?_] at hv
    · intro hne
      have : g.d.length ≠ 0 := by simpa using hne
      rw [if_neg hne, List.length_nil]
      omega
    · have := hlen 0 (by omega)
      simpa [eFrac] using this

theorem fmtF_value (neg : Bool) {g : FDigits} (h : GoodDigits g) (prec : Int) (hp : g.d ≠ [] → (g.d.length : Int) - g.dp ≤ max prec 0) :
    TextValue (fmtF neg g prec) (digitsValue neg g) := by
  rw [fmtF_eq]
  have hnil : (g.d.length : Int) ≥ 1 ∨ g.d = [] := by
    cases g.d with
    | nil => exact .inr rfl
    | cons c u => left; simp; omega
  have hcat : ∀ p : Nat, (g.d ≠ [] → (g.d.length : Int) - g.dp ≤ p) → decVal (fInt g ++ (fPad g ++ List.replicate p 0x30).take p) =
      decVal g.d * 10 ^ (g.dp + p - g.d.length).toNat := by
    intro p hp
    by_cases h0 : g.d = []
    · have e1 : fInt g = [0x30] := by unfold fInt; rw [if_neg (by have := h.2.2.1 h0; omega)]
      have e2 : fPad g ++ List.replicate p 0x30 = List.replicate ((-g.dp).toNat + p) 0x30 := by simp [fPad, h0, List.replicate_append_replicate]
      rw [e1, e2, List.take_replicate, h0, decVal_cat, decVal_replicate]
      simp [decVal]
    · have hp := hp h0
      have e2 : (fPad g ++ List.replicate p 0x30).take p = fPad g ++ List.replicate (p - (fPad g).length) 0x30 := by
        rw [List.take_append, List.take_replicate]
        have hl : (fPad g).length ≤ p ∨ g.dp ≤ 0 ∧ False ∨ (fPad g).length > p := by omega
        have : (fPad g).length ≤ p := by simp only [fPad, List.length_append, List.length_replicate, List.length_drop]; omega
        rw [List.take_of_length_le this]
        congr 2
        omega
      have hl : (fPad g).length = (-g.dp).toNat + (g.d.length - g.dp.toNat) := by simp [fPad]
      rw [e2, ← List.append_assoc, decVal_cat _ (List.replicate _ _), decVal_replicate, Nat.add_zero, List.length_replicate]
      unfold fInt
      by_cases hd : g.dp > 0
      · rw [if_pos hd]
        have e3 : fPad g = g.d.drop g.dp.toNat := by simp [fPad, show (-g.dp).toNat = 0 by omega]
        rw [e3] at hl ⊢
        by_cases hlt : g.d.length ≤ g.dp.toNat
        · rw [List.drop_eq_nil_of_le hlt, List.take_of_length_le hlt, List.append_nil, decVal_cat, decVal_replicate, Nat.add_zero, List.length_replicate, Nat.mul_assoc, ← Nat.pow_add]
          congr 2
          simp
          omega
        · rw [show g.dp.toNat - (g.d.take g.dp.toNat).length = 0 by simp; omega, List.replicate_zero, List.append_nil, List.take_append_drop]
          congr 2
          simp
          omega
      · rw [if_neg hd]
        have e3 : g.dp.toNat = 0 := by omega
        rw [hl]
        rw [e3] at hl ⊢
        rw [decVal_cat]
        have e4 : fPad g = List.replicate (-g.dp).toNat 0x30 ++ g.d := by simp [fPad, e3]
        rw [e4, decVal_cat, decVal_replicate]
        simp only [show decVal [0x30] = 0 from rfl, Nat.zero_mul, Nat.zero_add]
        congr 2
        omega
  by_cases hpos : prec > 0
  · rw [if_pos hpos]
    have hv := textValue_cat neg (fInt g) (0x2E :: (fPad g ++ List.replicate prec.toNat 0x30).take prec.toNat) ((fPad g ++ List.replicate prec.toNat 0x30).take prec.toNat) [] 0 (fInt_digits h.1)
      (digits_take (digits_append (fPad_digits h.1) (digits_replicate _)) _) (.inr rfl) (by have := (fInt_intPart h); intro h0; simp at h0; rw [h0.1] at this; rcases this with h | ⟨_, _, h, -⟩ <;> cases h) (.inl ⟨rfl, rfl⟩)
    rw [List.append_nil] at hv
    rwa [value_shift neg g _ _ _ (hcat prec.toNat (by intro h0; have := hp h0; omega))] at hv
    intro h0
    have hp := hp h0
    simp only [List.length_take, List.length_append, List.length_replicate]
    omega
  · rw [if_neg hpos]
    have hv := textValue_cat neg (fInt g) [] [] [] 0 (fInt_digits h.1)
      (by simp [Digits]) (.inl ⟨rfl, rfl⟩) (by have := (fInt_intPart h); intro h0; simp at h0; rw [h0] at this; rcases this with h | ⟨_, _, h, -⟩ <;> cases h) (.inl ⟨rfl, rfl⟩)
    rw [List.append_nil] at hv
    have := hcat 0 (by intro h0; have := hp h0; omega)
    rwa [value_shift neg g _ _ _ (by simpa using this)] at hv
    intro h0
    have hp := hp h0
    simp only [List.length_nil]
    omega

theorem fabs_magnitude (f : BitVec 64) : (fabs f).toNat = magnitude f := by
  unfold fabs magnitude
  rw [BitVec.toNat_and]
  exact Nat.and_two_pow_sub_one_eq_mod f.toNat 63

end JV
