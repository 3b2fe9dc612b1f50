import Verif.Proofs.FloatFmt
import Verif.Proofs.Import
import Verif.Props.Marshal
/-!
C60: the texts of NewFloat64 and NewFloat32. C61: floats survive Marshal and Unmarshal. C62: NewFloat64f and NewFloat32f.
-/
namespace JV
open Spec

/-! ### C60 -/

/-- C60 as stated. False: see the exact condition and the counterexamples. -/
def C60_statement : Prop := ∀ (O : DigitFn) (w : Bool) (f : BitVec 64), finite f = true → Shortest O w f → newFloatText O w f = jsonFloatText O w f

theorem natText_two {n : Nat} (h : n < 100) (h1 : 10 ≤ n) : natText n = [chDigit (n / 10), chDigit n] := by
  rw [natText, if_neg (by omega), natText, if_pos (by omega)]
  simp only [chDigit, List.singleton_append, List.cons.injEq, and_true]
  constructor <;> congr 1 <;> omega

theorem natText_three {n : Nat} (h : n < 1000) (h1 : 100 ≤ n) : natText n = [chDigit (n / 100), chDigit (n / 10), chDigit n] := by
  rw [natText, if_neg (by omega), natText_two (by omega) (by omega)]
  simp only [chDigit, List.cons_append, List.nil_append, List.cons.injEq, and_true]
  refine ⟨?_, trivial, ?_⟩ <;> congr 1 <;> omega

theorem fmtExp_big {x : Int} (h : 10 ≤ x.natAbs) (h1 : x.natAbs < 1000) : fmtExp x = (if x < 0 then 0x2D else 0x2B) :: natText x.natAbs := by
  unfold fmtExp
  simp only
  rw [if_neg (c := x.natAbs < 10) (by omega)]
  by_cases h2 : x.natAbs < 100
  · rw [if_pos h2, natText_two h2 h]
  · rw [if_neg h2, natText_three h1 (by omega)]

/-- `%e` with the fewest digits -/
theorem fmtE_short (neg : Bool) (g : FDigits) (h : g.d ≠ []) : fmtE neg g (max ((g.d.length : Int) - 1) 0) 0x65 =
    minus neg ++ mantissa g.d ++ 0x65 :: fmtExp (g.dp - 1) := by
  rw [fmtE_eq, if_neg h]
  match hd : g.d with
  | [] => exact absurd hd h
  | [c] => simp [sign, minus, mantissa]
  | c :: c' :: u =>
    have e : (max ((c :: c' :: u).length - 1 : Int) 0).toNat = u.length + 1 := by simp; omega
    rw [if_pos (by simp; omega), e]
    simp [eFrac, hd, sign, minus, mantissa]

theorem esText_exp {neg : Bool} {d : Bytes} {n : Int} (h : d ≠ []) (hn : n ≤ -6 ∨ 22 ≤ n) :
    esText neg d n = minus neg ++ mantissa d ++
      0x65 :: (if n - 1 < 0 then 0x2D else 0x2B) :: natText (n - 1).natAbs := by
  have hl : 0 < d.length := List.length_pos_iff.2 h
  unfold esText
  simp only
  rw [if_neg h, if_neg (by omega), if_neg (by omega), if_neg (by omega)]

theorem esText_plain {neg : Bool} {g : FDigits} (hg : Digits g.d) (hn : g.d = [] ∨ (-5 ≤ g.dp ∧ g.dp ≤ 21)) : (0x65 : UInt8) ∉ esText neg g.d g.dp := by
  have hd : (0x65 : UInt8) ∉ g.d := by
    intro h
    have := hg _ h
    unfold Digit at this
    exact absurd this (by decide)
  have hm : (0x65 : UInt8) ∉ minus neg := by cases neg <;> simp [minus]
  unfold esText
  simp only
  by_cases h0 : g.d = []
  · rw [if_pos h0]; simp [hm]
  · have hn := hn.resolve_left h0
    rw [if_neg h0]
    have ht : ∀ n, (0x65 : UInt8) ∉ g.d.take n := fun n h => hd (List.mem_of_mem_take h)
    have hr : ∀ n, (0x65 : UInt8) ∉ g.d.drop n := fun n h => hd (List.mem_of_mem_drop h)
    by_cases h1 : (g.d.length : Int) ≤ g.dp ∧ g.dp ≤ 21
    · rw [if_pos h1]; simp [hm, hd]
    · rw [if_neg h1]
      by_cases h2 : 0 < g.dp ∧ g.dp ≤ 21
      · rw [if_pos h2]; simp [hm, ht, hr]
      · rw [if_neg h2, if_pos (by omega)]; simp [hm, hd]

theorem fmtF_short {neg : Bool} {g : FDigits} (h0 : g.d ≠ []) (h1 : -5 ≤ g.dp) (h2 : g.dp ≤ 21) :
    fmtF neg g (max ((g.d.length : Int) - g.dp) 0) = esText neg g.d g.dp := by
  have hl : 0 < g.d.length := List.length_pos_iff.2 h0
  rw [fmtF_eq]
  unfold esText
  simp only
  rw [if_neg h0]
  have hs : sign neg = minus neg := rfl
  rw [hs]
  by_cases h3 : (g.d.length : Int) ≤ g.dp
  · rw [if_pos (c := (g.d.length : Int) ≤ g.dp ∧ g.dp ≤ 21) ⟨h3, h2⟩, if_neg (by omega)]
    unfold fInt
    rw [if_pos (by omega), List.take_of_length_le (by omega)]
    simp only [List.append_nil, List.append_assoc]
    congr 3
    omega
  · rw [if_neg (c := (g.d.length : Int) ≤ g.dp ∧ g.dp ≤ 21) (by omega), if_pos (by omega)]
    have hpl : (fPad g).length = (max ((g.d.length : Int) - g.dp) 0).toNat := by
      simp only [fPad, List.length_append, List.length_replicate, List.length_drop]; omega
    rw [← hpl, List.take_append_of_le_length (Nat.le_refl _), List.take_length]
    by_cases h4 : 0 < g.dp
    · rw [if_pos ⟨h4, h2⟩]
      unfold fInt fPad
      rw [if_pos h4, show (-g.dp).toNat = 0 by omega, show g.dp.toNat - (g.d.take g.dp.toNat).length = 0 by simp; omega]
      simp
    · rw [if_neg (by omega), if_pos (by omega)]
      unfold fInt fPad
      rw [if_neg h4, show g.dp.toNat = 0 by omega]
      simp

theorem newFloatText_eq {O : DigitFn} {w : Bool} {f : BitVec 64} (h : Shortest O w f) :
    newFloatText O w f = if usesE f then fmtE f.msb (shortest O w f) (max (((shortest O w f).d.length : Int) - 1) 0) 0x65
      else fmtF f.msb (shortest O w f) (max (((shortest O w f).d.length : Int) - (shortest O w f).dp) 0) := by
  unfold newFloatText formatFloat
  simp only [h.same]
  cases usesE f <;> simp [formatDigits, precFor]

theorem usesE_zero {f : BitVec 64} (h : fltNonzero f = false) : usesE f = true := by
  have : f = 0#64 ∨ f = 0x8000000000000000#64 := by
    simp only [fltNonzero, Bool.and_eq_false_iff, bne_eq_false_iff_eq] at h
    exact h
  rcases this with rfl | rfl <;> decide

/-- When the text of NewFloat64 (NewFloat32) is that of encoding/json: exactly for the floats other than zero whose decimal exponent is not -7, -8
or -9 and, if it is a float32, that are not written with an exponent though encoding/json would write none. -/
theorem C60_exact (O : DigitFn) (w : Bool) (f : BitVec 64) (h : Shortest O w f) :
    newFloatText O w f = jsonFloatText O w f ↔
      fltNonzero f = true ∧ ¬ (-8 ≤ (shortest O w f).dp ∧ (shortest O w f).dp ≤ -6) ∧ ¬ (magnitude f < 0x3EB0C6F7A0B5ED8D ∧ (shortest O w f).dp = -5) := by
  have hm := fabs_magnitude f
  rw [newFloatText_eq h]
  unfold jsonFloatText
  have hg := h.good
  have hz := h.size
  generalize shortest O w f = g at *
  have hin : ∀ (neg : Bool) p, (0x65 : UInt8) ∈ fmtE neg g p 0x65 := by intro neg p; unfold fmtE; simp
  by_cases hnz : fltNonzero f = true
  · have h0 : g.d ≠ [] := fun h0 => by have := hz.zero.1 h0; rw [hnz] at this; cases this
    simp only [hnz, true_and]
    cases hu : usesE f with
    | true =>
      simp only [if_true]
      have hr := hg.2.2.2
      have hb := hz.big h0
      simp only [usesE, Bool.or_eq_true, decide_eq_true_eq, hm] at hu
      by_cases hbig : 22 ≤ g.dp
      · refine iff_of_true ?_ (by omega)
        rw [fmtE_short _ _ h0, esText_exp h0 (.inr hbig), fmtExp_big (by omega) (by omega)]
      · have hlow : g.dp ≤ -5 ∨ -4 ≤ g.dp := by omega
        by_cases h5 : -5 ≤ g.dp
        · have hne : fmtE f.msb g (max ((g.d.length : Int) - 1) 0) 0x65 ≠ esText f.msb g.d g.dp := by
            intro he
            have := hin f.msb (max ((g.d.length : Int) - 1) 0)
            rw [he] at this
            exact esText_plain hg.1 (.inr ⟨h5, by omega⟩) this
          refine iff_of_false hne ?_
          intro hc
          have := hz.tiny h0 (by omega)
          split at this <;> omega
        · by_cases h9 : g.dp ≤ -9
          · refine iff_of_true ?_ (by omega)
            rw [fmtE_short _ _ h0, esText_exp h0 (.inl (by omega)), fmtExp_big (by omega) (by omega)]
          · refine iff_of_false ?_ (by omega)
            rw [fmtE_short _ _ h0, esText_exp h0 (.inl (by omega))]
            intro he
            have he := congrArg List.length he
            have e1 : (natText (g.dp - 1).natAbs).length = 1 := by rw [natText, if_pos (by omega)]; rfl
            have e2 : (fmtExp (g.dp - 1)).length = 3 := by unfold fmtExp; simp only; rw [if_pos (c := (g.dp - 1).natAbs < 10) (by omega)]; rfl
            simp only [List.length_append, List.length_cons, e1, e2] at he
            omega
    | false =>
      simp only [Bool.false_eq_true, if_false]
      simp only [usesE, Bool.or_eq_false_iff, decide_eq_false_iff_not, hm] at hu
      have hb := hz.big h0
      have hs := hz.small h0 (by omega)
      exact iff_of_true (fmtF_short h0 hs (by omega)) (by omega)
  · have hnz : fltNonzero f = false := by simpa using hnz
    rw [usesE_zero hnz]
    simp only [hnz, Bool.false_eq_true, false_and, iff_false, if_true]
    intro he
    have := hin f.msb (max ((g.d.length : Int) - 1) 0)
    rw [he] at this
    exact esText_plain hg.1 (.inl (hz.zero.2 hnz)) this

/-- a strconv that finds the digits `d` of `0.d × 10^dp` -/
def sampleDigits (d : String) (dp : Int) : DigitFn := fun _ _ _ _ => ⟨asc d, dp⟩

theorem sampleDigits_ok {d : String} {dp : Int} {w : Bool} {f : BitVec 64} (h1 : (asc d).all isDigitB = true) (h2 : (asc d).head? ≠ some 0x30) (h3 : asc d = [] → dp ≤ 0)
    (h4 : -998 ≤ dp ∧ dp ≤ 999) (h5 : (asc d).length ≤ 17) (h6 : SizeOK w f ⟨asc d, dp⟩) : Shortest (sampleDigits d dp) w f where
  same _ := rfl
  good := ⟨digits_of h1, fun u hu => h2 (by
    have e : asc d = 0x30 :: u := hu
    rw [e]; rfl), h3, h4⟩
  few := h5
  size := h6

theorem shortest_zero (w : Bool) : Shortest (sampleDigits "" 0) w 0 :=
  sampleDigits_ok (by decide +kernel) (by decide +kernel) (by decide) (by decide) (by decide +kernel)
    ⟨by decide +kernel, fun h => absurd rfl h, fun h => absurd rfl h, fun h => absurd rfl h⟩

/-- 1e-7 -/
theorem shortest_e7 : Shortest (sampleDigits "1" (-6)) false 0x3E7AD7F29ABCAF48#64 :=
  sampleDigits_ok (by decide +kernel) (by decide +kernel) (by decide +kernel) (by decide) (by decide +kernel)
    ⟨by decide +kernel, by decide +kernel, by decide +kernel, by decide +kernel⟩

/-- float32(1e-6) -/
theorem shortest_e6 : Shortest (sampleDigits "1" (-5)) true 0x3EB0C6F7A0000000#64 :=
  sampleDigits_ok (by decide +kernel) (by decide +kernel) (by decide +kernel) (by decide) (by decide +kernel)
    ⟨by decide +kernel, by decide +kernel, by decide +kernel, by decide +kernel⟩

/-- 1e+21 -/
theorem shortest_e21 (w : Bool) : Shortest (sampleDigits "1" 22) w 0x444B1AE4D6E2EF50#64 :=
  sampleDigits_ok (by decide +kernel) (by decide +kernel) (by decide +kernel) (by decide) (by decide +kernel)
    ⟨by decide +kernel, by decide +kernel, by decide +kernel, by cases w <;> decide +kernel⟩

/-- -1.5 -/
theorem shortest_15 (w : Bool) : Shortest (sampleDigits "15" 1) w 0xBFF8000000000000#64 :=
  sampleDigits_ok (by decide +kernel) (by decide +kernel) (by decide +kernel) (by decide) (by decide +kernel)
    ⟨by decide +kernel, by decide +kernel, by decide +kernel, by cases w <;> decide +kernel⟩

/-- zero: `0e+00`, not `0` -/
theorem C60_counterexample : ¬ C60_statement := by
  intro h
  have := h (sampleDigits "" 0) false 0 (by decide) (shortest_zero false)
  revert this
  decide +kernel

/-- the three kinds of differences: 0, 1e-7 and float32(1e-6) -/
theorem C60_differences :
    (newFloatText (sampleDigits "" 0) false 0 = asc "0e+00" ∧ jsonFloatText (sampleDigits "" 0) false 0 = asc "0") ∧
    (newFloatText (sampleDigits "1" (-6)) false 0x3E7AD7F29ABCAF48#64 = asc "1e-07" ∧ jsonFloatText (sampleDigits "1" (-6)) false 0x3E7AD7F29ABCAF48#64 = asc "1e-7") ∧
    (newFloatText (sampleDigits "1" (-5)) true 0x3EB0C6F7A0000000#64 = asc "1e-06" ∧ jsonFloatText (sampleDigits "1" (-5)) true 0x3EB0C6F7A0000000#64 = asc "0.000001") := by
  decide +kernel

-- where they agree
example : newFloatText (sampleDigits "1" 22) false 0x444B1AE4D6E2EF50#64 = jsonFloatText (sampleDigits "1" 22) false 0x444B1AE4D6E2EF50#64 :=
  (C60_exact _ _ _ (shortest_e21 false)).2 (by decide +kernel)
example : newFloatText (sampleDigits "15" 1) true 0xBFF8000000000000#64 = asc "-1.5" ∧ jsonFloatText (sampleDigits "15" 1) true 0xBFF8000000000000#64 = asc "-1.5" := by decide +kernel

/-! ### C62 -/

theorem validFormat_cases (fmt : UInt8) : let m := validFormat fmt
    (m = 0x65 ∨ m = 0x45) ∨ m = 0x66 ∨ (m = 0x67 ∨ m = 0x47) := by
  unfold validFormat
  simp only
  split
  · rename_i h; rcases h with h | h | h | h | h <;> simp [h]
  · simp

/-- The text of NewFloat64f and NewFloat32f is a JSON number, whatever format byte and precision are asked for, also a negative one. -/
theorem C62_json (O : DigitFn) (w : Bool) (f : BitVec 64) (fmt : UInt8) (prec : Int) (h : GoodDigits (O w f (validFormat fmt) prec)) :
    JNum (formatFloat O w f (validFormat fmt) prec) := by
  unfold formatFloat
  simp only
  generalize O w f (validFormat fmt) prec = g at *
  have hE : ∀ p m, (m = 0x65 ∨ m = 0x45) → JNum (fmtE f.msb g p m) := fun p m hm => .inr ⟨_, _, fmtE_jfloat f.msb h.1 p hm⟩
  have hF : ∀ p, JNum (fmtF f.msb g p) := fun p => by
    rcases fmtF_jnum f.msb h p with ⟨-, h⟩ | ⟨-, h⟩
    · exact .inl ⟨_, _, h⟩
    · exact .inr ⟨_, _, h⟩
  generalize precFor g (validFormat fmt) prec = p
  have hm := validFormat_cases fmt
  simp only at hm
  generalize validFormat fmt = m at *
  unfold formatDigits
  rcases hm with hm | hm | hm
  · rw [if_pos hm]; exact hE _ _ hm
  · subst hm; exact hF _
  · have e1 : ¬ (m = 0x65 ∨ m = 0x45) := by rcases hm with rfl | rfl <;> decide
    have e2 : m ≠ 0x66 := by rcases hm with rfl | rfl <;> decide
    have e3 : m - 2 = 0x65 ∨ m - 2 = 0x45 := by rcases hm with rfl | rfl <;> decide
    rw [if_neg e1, if_neg e2]
    simp only
    generalize (if decide (prec < 0) = true then (6 : Int) else _) = eprec
    by_cases hx : g.dp - 1 < -4 ∨ g.dp - 1 ≥ eprec
    · rw [if_pos hx]; exact hE _ _ e3
    · rw [if_neg hx]; exact hF _

/-- It denotes exactly the number whose digits strconv found, rounded as asked for. -/
theorem C62_value (O : DigitFn) (w : Bool) (f : BitVec 64) (fmt : UInt8) (prec : Int) (h : GoodDigits (O w f (validFormat fmt) prec))
    (hr : Rounded (O w f (validFormat fmt) prec) (validFormat fmt) prec) :
    TextValue (formatFloat O w f (validFormat fmt) prec) (digitsValue f.msb (O w f (validFormat fmt) prec)) := by
  unfold formatFloat
  simp only
  generalize O w f (validFormat fmt) prec = g at *
  have hm := validFormat_cases fmt
  simp only at hm
  generalize validFormat fmt = m at *
  unfold formatDigits precFor
  unfold Rounded at hr
  simp only
  rcases hm with hm | hm | hm
  · rw [if_pos hm, if_pos hm]
    rw [if_pos hm] at hr
    apply fmtE_value f.msb h _ hm
    split
    · omega
    · rw [if_neg (by rcases hm with rfl | rfl <;> simp)]; omega
  · have e1 : ¬ (m = 0x65 ∨ m = 0x45) := by rw [hm]; decide
    rw [if_neg e1, if_neg e1, if_pos hm, if_pos hm]
    rw [if_neg e1, if_pos hm] at hr
    apply fmtF_value f.msb h
    intro h0
    split
    · omega
    · rw [if_neg (by rw [hm]; simp)]
      have := hr.resolve_left (by omega) h0
      omega
  · have e1 : ¬ (m = 0x65 ∨ m = 0x45) := by rcases hm with rfl | rfl <;> decide
    have e2 : m ≠ 0x66 := by rcases hm with rfl | rfl <;> decide
    have e3 : m - 2 = 0x65 ∨ m - 2 = 0x45 := by rcases hm with rfl | rfl <;> decide
    rw [if_neg e1, if_neg e1, if_neg e2, if_neg e2]
    rw [if_neg e1, if_neg e2] at hr
    generalize hp : (if prec < 0 then (g.d.length : Int) else if (m = 0x67 ∨ m = 0x47) ∧ prec = 0 then 1 else prec) = p
    have hle : (g.d.length : Int) ≤ p := by
      rw [← hp]
      split
      · omega
      · by_cases h0 : prec = 0
        · rw [if_pos ⟨hm, h0⟩]; omega
        · rw [if_neg (fun h => h0 h.2)]; omega
    have hE : TextValue (fmtE f.msb g ((if p > g.d.length then (g.d.length : Int) else p) - 1) (m - 2)) (digitsValue f.msb g) := by
      apply fmtE_value f.msb h _ e3
      split <;> omega
    have hF : TextValue (fmtF f.msb g (max ((if p > g.dp then (g.d.length : Int) else p) - g.dp) 0)) (digitsValue f.msb g) := by
      apply fmtF_value f.msb h
      intro _
      split <;> omega
    generalize (if decide (prec < 0) = true then (6 : Int) else _) = eprec
    by_cases hx : g.dp - 1 < -4 ∨ g.dp - 1 ≥ eprec
    · rw [if_pos hx]; exact hE
    · rw [if_neg hx]; exact hF

/-- With `f` and a precision of zero or more: exactly that many digits after the dot (and no dot for none). -/
theorem C62_places (O : DigitFn) (w : Bool) (f : BitVec 64) (prec : Nat) (h : GoodDigits (O w f 0x66 prec)) :
    ∃ ip ds, IntPart ip ∧ Digits ds ∧ ds.length = prec ∧
      formatFloat O w f (validFormat 0x66) prec = sign f.msb ++ ip ++ (if prec = 0 then [] else 0x2E :: ds) := by
  have e : validFormat 0x66 = 0x66 := by decide
  unfold formatFloat
  simp only [e]
  generalize O w f 0x66 prec = g at *
  refine ⟨fInt g, (fPad g ++ List.replicate prec 0x30).take prec, fInt_intPart h, digits_take (digits_append (fPad_digits h.1) (digits_replicate _)) _, ?_, ?_⟩
  · simp
  · have hp : precFor g 0x66 prec = prec := by
      unfold precFor
      simp only
      rw [if_neg (by omega), if_neg (by simp)]
    rw [hp]
    unfold formatDigits
    rw [if_neg (by decide), if_pos rfl, fmtF_eq]
    by_cases h0 : prec = 0
    · simp [h0]
    · rw [if_pos (by omega), if_neg h0, Int.toNat_natCast]

/-- With `e` or `E`: one digit, exactly that many digits after the dot, and an exponent of two digits or more. -/
theorem C62_places_e (O : DigitFn) (w : Bool) (f : BitVec 64) (fmt : UInt8) (hf : fmt = 0x65 ∨ fmt = 0x45) (prec : Nat) (h : GoodDigits (O w f fmt prec)) :
    ∃ c ds x, Digit c ∧ Digits ds ∧ ds.length = prec ∧ Digits x ∧ 2 ≤ x.length ∧
      ∃ sg, (sg = 0x2B ∨ sg = 0x2D) ∧ formatFloat O w f (validFormat fmt) prec = sign f.msb ++ [c] ++ (if prec = 0 then [] else 0x2E :: ds) ++ fmt :: sg :: x := by
  have e : validFormat fmt = fmt := by rcases hf with rfl | rfl <;> decide
  unfold formatFloat
  simp only [e]
  generalize O w f fmt prec = g at *
  obtain ⟨x, h1, h2, h3, -⟩ := fmtExp_eq (if g.d = [] then 0 else g.dp - 1)
  refine ⟨g.d.headD 0x30, eFrac g prec, x, headD_digit h.1, eFrac_digits h.1 _, eFrac_len _ _, h2, h3, if (if g.d = [] then 0 else g.dp - 1) < 0 then 0x2D else 0x2B, ?_, ?_⟩
  · by_cases hx : (if g.d = [] then 0 else g.dp - 1) < 0
    · rw [if_pos hx]; exact .inr rfl
    · rw [if_neg hx]; exact .inl rfl
  · have hp : precFor g fmt prec = prec := by
      unfold precFor
      simp only
      rw [if_neg (by omega), if_neg (by rcases hf with rfl | rfl <;> simp)]
    rw [hp]
    unfold formatDigits
    rw [if_pos hf, fmtE_eq, h1]
    by_cases h0 : prec = 0
    · simp [h0]
    · rw [if_pos (by omega), if_neg h0, Int.toNat_natCast]

/-- Every other letter means `g`. -/
theorem C62_other_formats (E : Env) (O : DigitFn) (f : BitVec 64) (fmt : UInt8) (prec : Int) (h : fmt ∉ [0x66, 0x45, 0x65, 0x47, 0x67]) :
    newFloatF E O f fmt prec = newFloatF E O f 0x67 prec := by
  have h1 : validFormat fmt = 0x67 := by
    unfold validFormat
    rw [if_neg (by simpa using h)]
  have h2 : validFormat 0x67 = 0x67 := by decide
  unfold newFloatF
  rw [h1, h2]

/-- Values made by the four constructors are among those on which the theorems about built values speak (C09, C10). -/
theorem C62_built (E : Env) (O : DigitFn) (w : Bool) (f : BitVec 64) (fmt : UInt8) (prec : Int)
    (h : isValidFloat f = true → ∀ w m p, GoodDigits (O w f m p)) :
    ApiScalar E (newFloatF E O f fmt prec) ∧ ApiScalar E (newFloat E (newFloatText O) w f) := by
  refine ⟨.float _ _ fun hv => C62_json O false f fmt prec (h hv _ _ _), .float _ _ fun hv => ?_⟩
  have := C62_json O w f (if usesE f then 0x65 else 0x66) (-1) (h hv _ _ _)
  rwa [show validFormat (if usesE f then 0x65 else 0x66) = if usesE f then 0x65 else 0x66 by cases usesE f <;> decide] at this

-- Pi with two places; a format that does not exist; a negative precision with `f`
example : formatFloat (sampleDigits "314" 1) false 0x400921FB54442D18#64 (validFormat 0x66) 2 = asc "3.14" ∧
    GoodDigits (sampleDigits "314" 1 false 0x400921FB54442D18#64 0x66 2) ∧ Rounded (sampleDigits "314" 1 false 0x400921FB54442D18#64 0x66 2) 0x66 2 := by
  refine ⟨by decide +kernel, ⟨digits_of (by decide +kernel), fun u h => by have h := congrArg List.head? h; simp only [List.head?_cons] at h; revert h; decide +kernel, by decide +kernel, by decide, by decide⟩, .inr ?_⟩
  rw [if_neg (by decide), if_pos rfl]
  decide +kernel
example : formatFloat (sampleDigits "314" 1) false 0x400921FB54442D18#64 (validFormat 0x78) 3 = asc "3.14" ∧
    formatFloat (sampleDigits "12" 22) true 0x444B1AE4D6E2EF50#64 (validFormat 0x47) (-7) = asc "1.2E+21" ∧
    formatFloat (sampleDigits "5" 0) false 0x3FE0000000000000#64 (validFormat 0x65) 0 = asc "5e-01" := by decide +kernel

/-- The text of NewFloat64 and NewFloat32 is a JSON number for exactly the digits that strconv found. -/
theorem C60_value (O : DigitFn) (w : Bool) (f : BitVec 64) (h : Shortest O w f) :
    JNum (newFloatText O w f) ∧ TextValue (newFloatText O w f) (digitsValue f.msb (shortest O w f)) := by
  have hv : validFormat (if usesE f then 0x65 else 0x66) = if usesE f then 0x65 else 0x66 := by cases usesE f <;> decide
  have hg : O w f (validFormat (if usesE f then 0x65 else 0x66)) (-1) = shortest O w f := h.same _
  have h1 := C62_json O w f (if usesE f then 0x65 else 0x66) (-1) (hg ▸ h.good)
  have h2 := C62_value O w f (if usesE f then 0x65 else 0x66) (-1) (hg ▸ h.good) (.inl (by decide))
  rw [hg] at h2
  rw [hv] at h1 h2
  exact ⟨h1, h2⟩

/-! ### C61 -/

/-- C61 as stated, for values at top level. False: see the counterexamples. -/
def C61_statement : Prop := ∀ (E : Env) (S : SortFn) (O : DigitFn) (d : Opt) (opts : List MOpt) (f : BitVec 64), finite f = true → Shortest O false f → IntConv E →
  E.parseFloat (newFloatText O false f) = some f →
  ∃ t w, marshal E S d (newFloat E (newFloatText O) false f) opts = .ok (t, none) ∧ goUnmarshal E t = .ok (t, w, none) ∧ float64 E w = .ok f

theorem floatText_zeros {O : DigitFn} {w : Bool} {f : BitVec 64} (h : Shortest O w f) (neg : Bool) (ip : Bytes) (hj : JFloat neg ip (newFloatText O w f)) :
    ∃ neg' ip', JFloat neg' ip' (newFloatText O w f) ∧ ZerosOK ip' := by
  have hone : ∀ c, Digit c → ZerosOK [c] := fun c hc =>
    zerosOK_of_lt (fun x hx => by rw [List.mem_singleton.1 hx]; exact hc) (by simp) (by simp)
  rw [newFloatText_eq h] at hj ⊢
  cases hu : usesE f with
  | true =>
    simp only [if_true]
    exact ⟨_, _, fmtE_jfloat f.msb h.good.1 _ (.inl rfl), hone _ (headD_digit h.good.1)⟩
  | false =>
    rw [hu] at hj
    simp only [Bool.false_eq_true, if_false] at hj ⊢
    rcases fmtF_jnum f.msb h.good (max (((shortest O w f).d.length : Int) - (shortest O w f).dp) 0) with ⟨hp, hi⟩ | ⟨hp, hf⟩
    · exfalso
      obtain ⟨fp, ep, hip, hfp, hep, hne, ht⟩ := hj
      have hchars : ∀ c ∈ fmtF f.msb (shortest O w f) (max (((shortest O w f).d.length : Int) - (shortest O w f).dp) 0), c = 0x2D ∨ Digit c := by
        rw [hi.2]
        intro c hc
        rcases List.mem_append.1 hc with hc | hc
        · cases hs : f.msb <;> simp [hs, sign] at hc; exact .inl hc
        · exact .inr ((intPart_digits hi.1).1 c hc)
      rw [ht] at hchars
      rcases hfp with rfl | ⟨ds, rfl, -⟩
      · rcases hep with rfl | ⟨e, sg, ds, rfl, he, -⟩
        · exact hne rfl
        · have := hchars e (by simp)
          rcases he with rfl | rfl <;> (unfold Digit at this; exact absurd this (by decide))
      · have := hchars 0x2E (by simp)
        unfold Digit at this
        exact absurd this (by decide)
    · refine ⟨_, _, hf, ?_⟩
      have hip := intPart_digits (fInt_intPart h.good)
      refine zerosOK_of_lt hip.1 ?_ hip.2.2
      have hfew := h.few
      unfold fInt
      split
      · simp only [List.length_append, List.length_replicate, List.length_take]; omega
      · simp

/-- NewFloat64(f), Marshal with any options, Unmarshal and Float64 give `f` back, bit by bit, for every finite `f` that is not written as an
integer outside of the range of int64 and uint64. The hypotheses on `E` and `O` are facts about strconv and Go's conversions. -/
theorem C61_partial (E : Env) (S : SortFn) (O : DigitFn) (d : Opt) (opts : List MOpt) (f : BitVec 64) (hf : finite f = true) (h : Shortest O false f) (hc : IntConv E)
    (hp : E.parseFloat (newFloatText O false f) = some f)
    (hr : ∀ neg ip, JInt neg ip (newFloatText O false f) → -2 ^ 63 ≤ intVal neg ip ∧ intVal neg ip < 2 ^ 64) :
    ∃ t w, marshal E S d (newFloat E (newFloatText O) false f) opts = .ok (t, none) ∧ goUnmarshal E t = .ok (t, w, none) ∧ float64 E w = .ok f ∧
      ∀ cl, getFloat64 E cl (.arr [w]) [.int 0] = .ok (f, none) := by
  have hj := (C60_value O false f h).1
  have hne : newFloatText O false f ≠ [] := by
    rcases hj with ⟨neg, ip, hi⟩ | ⟨neg, ip, fp, ep, h1, -, -, -, h2⟩
    · rw [hi.2]; simp [(intPart_digits hi.1).2.1]
    · rw [h2]; simp [(intPart_digits h1).2.1]
  have hm : marshal E S d (newFloat E (newFloatText O) false f) opts = .ok (newFloatText O false f, none) := by
    unfold newFloat newFloat64f
    rw [if_pos (finite_valid hf)]
    exact marshal_num E S d opts _ hne
  have key : NumTok E (newFloatText O false f) ∧ (numOf E (newFloatText O false f)).f64 = f := by
    rcases hj with ⟨neg, ip, hi⟩ | ⟨neg, ip, hfl⟩
    · have hr := hr neg ip hi
      obtain ⟨h1, h2⟩ := jint_num (E := E) hi hr.1 hr.2
      refine ⟨h1, ?_⟩
      have hlt : decVal ip < 2 ^ 64 := by
        unfold intVal at hr
        cases neg <;> simp at hr <;> omega
      have := hc neg ip _ hi hlt
      rw [hp] at this
      rw [h2]
      unfold intNum
      cases neg <;> simp at this ⊢ <;> exact this.symm
    · obtain ⟨neg', ip', h1, h2⟩ := floatText_zeros h neg ip hfl
      obtain ⟨h3, h4⟩ := jfloat_num h1 h2 hp
      exact ⟨h3, by rw [h4]; rfl⟩
  refine ⟨_, _, hm, goUnmarshal_ok.2 ⟨rfl, unmarshal_numTok key.1⟩, ?_, fun cl => ?_⟩
  · show R.ok _ = _; rw [key.2]
  · have : getFloat64 E cl (.arr [.num (newFloatText O false f) (numOf E (newFloatText O false f))]) [.int 0] =
        .ok ((numOf E (newFloatText O false f)).f64, none) := by cases cl <;> rfl
    rw [this, key.2]

/-- NewFloat64(3e19) is written as `30000000000000000000`, which Unmarshal reads as 11553255926290448384, without an error. -/
theorem C61_wraps (E : Env) : newFloatText (sampleDigits "3" 20) false 0x43FA055690D9DB80#64 = asc "30000000000000000000" ∧
    ∃ w, goUnmarshal E (asc "30000000000000000000") = .ok (asc "30000000000000000000", w, none) ∧ uint64 E w = .ok 11553255926290448384#64 ∧
      float64 E w = .ok (E.u64ToF64 11553255926290448384#64) := by
  refine ⟨by decide +kernel, ?_⟩
  have hd : Digits (asc "30000000000000000000") := digits_of (by decide +kernel)
  have hi : IntTok false (asc "30000000000000000000") := by
    refine ⟨hd, by decide +kernel, ?_⟩
    rw [if_neg (by decide)]
    refine ⟨?_, .inr (by decide +kernel)⟩
    intro c u h
    have h := congrArg List.head? h
    simp only [List.head?_cons] at h
    revert h
    decide +kernel
  obtain ⟨h1, h2⟩ := intTok_iff (E := E) false _ hd
  have h3 := unmarshal_numTok (h1.2 hi)
  rw [h2 hi] at h3
  have hs : sign false ++ asc "30000000000000000000" = asc "30000000000000000000" := rfl
  rw [hs] at h3
  have hb : BitVec.ofNat 64 (decVal (asc "30000000000000000000")) = 11553255926290448384#64 := by decide +kernel
  refine ⟨_, goUnmarshal_ok.2 ⟨rfl, h3⟩, ?_, ?_⟩
  · show R.ok (intNum E false _).u64 = _
    simp only [intNum, Bool.false_eq_true, if_false, hb]
  · show R.ok (intNum E false _).f64 = _
    simp only [intNum, Bool.false_eq_true, if_false, hb]

/-- NewFloat64(1e20) is written as `100000000000000000000`, which Unmarshal refuses. -/
theorem C61_refused : newFloatText (sampleDigits "1" 21) false 0x4415AF1D78B58C40#64 = asc "100000000000000000000" ∧
    unmarshal sampleEnv (asc "100000000000000000000") = .err .other := by decide +kernel

/-- 3e19 -/
theorem shortest_3e19 : Shortest (sampleDigits "3" 20) false 0x43FA055690D9DB80#64 :=
  sampleDigits_ok (by decide +kernel) (by decide +kernel) (by decide +kernel) (by decide) (by decide +kernel)
    ⟨by decide +kernel, by decide +kernel, by decide +kernel, by decide +kernel⟩

/-- a strconv that reads `text` as `f` and all integers below 2^64 as 0 -/
def zeroEnv (text : Bytes) (f : BitVec 64) : Env :=
  { sampleEnv with
    u64ToF64 := fun _ => 0
    parseFloat := fun t => if t = text then some f else if t.head? = some 0x2D then some (fneg 0) else some 0 }

theorem zeroEnv_conv {text : Bytes} (f : BitVec 64) (hn : ∀ neg ip, JInt neg ip text → 2 ^ 64 ≤ decVal ip) : IntConv (zeroEnv text f) := by
  intro neg ip t h hlt
  have hip := intPart_digits h.1
  have h2 : t ≠ text := by
    rintro rfl
    have := hn neg ip h
    omega
  cases neg with
  | true =>
    have ht : t.head? = some 0x2D := by rw [h.2]; rfl
    simp [zeroEnv, ht, h2]
  | false =>
    have ht : t = ip := h.2
    have h1 : t.head? ≠ some 0x2D := by
      rw [ht]
      cases ip with
      | nil => simp
      | cons c u =>
        intro hc
        have := hip.1 c (by simp)
        simp at hc
        rw [hc] at this
        unfold Digit at this
        exact absurd this (by decide)
    simp [zeroEnv, h1, h2]

theorem big_3e19 (neg : Bool) (ip : Bytes) (h : JInt neg ip (asc "30000000000000000000")) : 2 ^ 64 ≤ decVal ip := by
  have e := h.2
  cases neg with
  | true =>
    have e := congrArg List.head? e
    simp only [sign, if_true, List.cons_append, List.head?_cons] at e
    exact absurd e (by decide +kernel)
  | false =>
    have e : asc "30000000000000000000" = ip := e
    rw [← e]
    decide +kernel

theorem no_int_15 (neg : Bool) (ip : Bytes) : ¬ JInt neg ip (asc "-1.5") := by
  intro h
  have hm : (0x2E : UInt8) ∈ asc "-1.5" := by decide
  rw [h.2] at hm
  rcases List.mem_append.1 hm with hm | hm
  · cases neg <;> simp [sign] at hm
  · have := (intPart_digits h.1).1 _ hm
    unfold Digit at this
    exact absurd this (by decide)

theorem C61_counterexample : ¬ C61_statement := by
  intro h
  obtain ⟨t, w, h1, h2, h3⟩ := h (zeroEnv (asc "30000000000000000000") 0x43FA055690D9DB80#64) insertionSort (sampleDigits "3" 20) emptyOptions [] 0x43FA055690D9DB80#64 (by decide) shortest_3e19 (zeroEnv_conv _ big_3e19) (by decide +kernel)
  obtain ⟨e1, w', h4, -, h5⟩ := C61_wraps (zeroEnv (asc "30000000000000000000") 0x43FA055690D9DB80#64)
  have hm : marshal (zeroEnv (asc "30000000000000000000") 0x43FA055690D9DB80#64) insertionSort emptyOptions (newFloat (zeroEnv (asc "30000000000000000000") 0x43FA055690D9DB80#64) (newFloatText (sampleDigits "3" 20)) false 0x43FA055690D9DB80#64) [] =
      .ok (asc "30000000000000000000", none) := by decide +kernel
  rw [hm] at h1
  cases h1
  rw [h4] at h2
  cases h2
  rw [h5] at h3
  simp [zeroEnv] at h3

/-- The condition of `C61_partial` is exact: every float that is written as an integer outside of the range is lost. -/
theorem C61_exact (E : Env) (S : SortFn) (O : DigitFn) (d : Opt) (opts : List MOpt) (f : BitVec 64) (hf : finite f = true) (h : Shortest O false f) (hc : IntConv E)
    (ha : FarApart E) (hp : E.parseFloat (newFloatText O false f) = some f) :
    (∃ t w, marshal E S d (newFloat E (newFloatText O) false f) opts = .ok (t, none) ∧ goUnmarshal E t = .ok (t, w, none) ∧ float64 E w = .ok f) ↔
    ∀ neg ip, JInt neg ip (newFloatText O false f) → -2 ^ 63 ≤ intVal neg ip ∧ intVal neg ip < 2 ^ 64 := by
  constructor
  · rintro ⟨t, w, hm, hu, hw⟩ neg ip hi
    obtain ⟨hd, hne, -⟩ := intPart_digits hi.1
    have ht : t = newFloatText O false f := by
      have hne : newFloatText O false f ≠ [] := by rw [hi.2]; simp [hne]
      have : marshal E S d (newFloat E (newFloatText O) false f) opts = .ok (newFloatText O false f, none) := by
        unfold newFloat newFloat64f
        rw [if_pos (finite_valid hf)]
        exact marshal_num E S d opts _ hne
      rw [this] at hm
      cases hm
      rfl
    subst ht
    have hu2 := hu
    rw [hi.2] at hu2
    rcases C06_integers_partial E neg ip w hd hne hu2 with ⟨hr, -⟩ | ⟨rfl, -, h1, h2⟩
    · exact hr
    · exfalso
      obtain ⟨-, rfl⟩ := unmarshal_intText hd hne (goUnmarshal_ok.1 hu2).2
      have hw : E.u64ToF64 (BitVec.ofNat 64 (decVal ip)) = f := by
        have : float64 E (.num (sign false ++ ip) (intNum E false (decVal ip))) = .ok (E.u64ToF64 (BitVec.ofNat 64 (decVal ip))) := rfl
        rw [this] at hw
        cases hw
        rfl
      have hdig := natDigits_spec (decVal ip % 2 ^ 64)
      have hj : JInt false (natDigits (decVal ip % 2 ^ 64)) (natDigits (decVal ip % 2 ^ 64)) := ⟨natDigits_intPart _, rfl⟩
      have hlt : decVal (natDigits (decVal ip % 2 ^ 64)) < 2 ^ 64 := by rw [hdig.2.2.1]; omega
      have h3 := hc false _ _ hj hlt
      have h4 : BitVec.ofNat 64 (decVal (natDigits (decVal ip % 2 ^ 64))) = BitVec.ofNat 64 (decVal ip) := by
        rw [hdig.2.2.1]
        apply BitVec.eq_of_toNat_eq
        simp
      rw [h4] at h3
      simp only [Bool.false_eq_true, if_false] at h3
      rw [hw] at h3
      exact ha _ _ ip _ hj hlt hi (by omega) (h3.trans hp.symm)
  · intro hr
    obtain ⟨t, w, h1, h2, h3, -⟩ := C61_partial E S O d opts f hf h hc hp hr
    exact ⟨t, w, h1, h2, h3⟩

/-- a strconv that reads `text` as `f`, integers below 2^64 as 0 and others as 1 -/
def farEnv (text : Bytes) (f : BitVec 64) : Env :=
  { sampleEnv with
    u64ToF64 := fun _ => 0
    parseFloat := fun t => if t = text then some f else if t.head? = some 0x2D then some (fneg 0) else if decVal t < 2 ^ 64 then some 0 else some 1 }

theorem jint_no_minus {ip t : Bytes} (h : JInt false ip t) : t = ip ∧ t.head? ≠ some 0x2D := by
  have hip := intPart_digits h.1
  have ht : t = ip := h.2
  refine ⟨ht, ?_⟩
  rw [ht]
  cases ip with
  | nil => simp
  | cons c u =>
    intro hc
    have := hip.1 c (by simp)
    simp at hc
    rw [hc] at this
    unfold Digit at this
    exact absurd this (by decide)

theorem farEnv_ok {text : Bytes} {f : BitVec 64} (hn : ∀ neg ip, JInt neg ip text → 2 ^ 64 ≤ decVal ip) (hf : f ≠ 0) :
    IntConv (farEnv text f) ∧ FarApart (farEnv text f) := by
  have hsmall : ∀ neg ip t, JInt neg ip t → decVal ip < 2 ^ 64 → t ≠ text := by
    rintro neg ip t h hlt rfl
    have := hn neg ip h
    omega
  constructor
  · intro neg ip t h hlt
    have h2 := hsmall neg ip t h hlt
    cases neg with
    | true =>
      have ht : t.head? = some 0x2D := by rw [h.2]; rfl
      simp [farEnv, ht, h2]
    | false =>
      obtain ⟨rfl, h1⟩ := jint_no_minus h
      simp [farEnv, h1, h2, hlt]
  · intro ip t ip' t' h hlt h' hge
    have h2 := hsmall false ip t h hlt
    obtain ⟨rfl, h1⟩ := jint_no_minus h
    obtain ⟨rfl, h1'⟩ := jint_no_minus h'
    have h3 : ¬ decVal t' < 2 ^ 64 := by omega
    simp only [farEnv, h2, if_false, h1, hlt, if_true, h1', h3]
    split
    · simpa using fun h => hf h.symm
    · decide

-- 3e19 is lost
example (S : SortFn) (d : Opt) (opts : List MOpt) : ¬ ∃ t w, marshal (farEnv (asc "30000000000000000000") 0x43FA055690D9DB80#64) S d
    (newFloat (farEnv (asc "30000000000000000000") 0x43FA055690D9DB80#64) (newFloatText (sampleDigits "3" 20)) false 0x43FA055690D9DB80#64) opts = .ok (t, none) ∧
    goUnmarshal (farEnv (asc "30000000000000000000") 0x43FA055690D9DB80#64) t = .ok (t, w, none) ∧
    float64 (farEnv (asc "30000000000000000000") 0x43FA055690D9DB80#64) w = .ok 0x43FA055690D9DB80#64 := by
  obtain ⟨h1, h2⟩ := farEnv_ok big_3e19 (f := 0x43FA055690D9DB80#64) (by decide)
  rw [C61_exact _ S _ d opts _ (by decide) shortest_3e19 h1 h2 (by decide +kernel)]
  intro h
  have e : newFloatText (sampleDigits "3" 20) false 0x43FA055690D9DB80#64 = asc "30000000000000000000" := by decide +kernel
  have := h false (asc "30000000000000000000") (by
    rw [e]
    exact ⟨.inr ⟨0x33, asc "0000000000000000000", by decide +kernel, by decide, by decide, digits_of (by decide +kernel)⟩, rfl⟩)
  exact absurd this (by decide +kernel)

-- -1.5
example (S : SortFn) (d : Opt) (opts : List MOpt) : ∃ t w, marshal (zeroEnv (asc "-1.5") 0xBFF8000000000000#64) S d
      (newFloat (zeroEnv (asc "-1.5") 0xBFF8000000000000#64) (newFloatText (sampleDigits "15" 1)) false 0xBFF8000000000000#64) opts = .ok (t, none) ∧
    goUnmarshal (zeroEnv (asc "-1.5") 0xBFF8000000000000#64) t = .ok (t, w, none) ∧ float64 (zeroEnv (asc "-1.5") 0xBFF8000000000000#64) w = .ok 0xBFF8000000000000#64 ∧
    ∀ cl, getFloat64 (zeroEnv (asc "-1.5") 0xBFF8000000000000#64) cl (.arr [w]) [.int 0] = .ok (0xBFF8000000000000#64, none) :=
  C61_partial _ S _ d opts _ (by decide) (shortest_15 false) (zeroEnv_conv _ fun neg ip h => absurd h (no_int_15 neg ip)) (by decide +kernel)
    (by rw [show newFloatText (sampleDigits "15" 1) false 0xBFF8000000000000#64 = asc "-1.5" by decide +kernel]; exact fun neg ip h => absurd h (no_int_15 neg ip))

end JV
