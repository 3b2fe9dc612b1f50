import Verif.Proofs.Compare
/-!
`newFromString` reads number texts right.
-/
namespace JV
open Spec

theorem digit_isDigitB {c : UInt8} : isDigitB c = true ↔ Digit c := by
  simp only [isDigitB, Digit, Bool.and_eq_true, decide_eq_true_eq, UInt8.le_iff_toNat_le]; rfl

theorem digits_of {ds : Bytes} (h : ds.all isDigitB = true) : Digits ds := fun c hc => digit_isDigitB.1 (List.all_eq_true.1 h c hc)

theorem digit_plain {c : UInt8} (h : Digit c) : isE c = false ∧ isDot c = false ∧ c ≠ 0x2D ∧ c ≠ 0x2B := by
  obtain ⟨h1, h2⟩ := h
  simp only [isE, isDot, Bool.or_eq_false_iff, beq_eq_false_iff_ne]
  refine ⟨⟨?_, ?_⟩, ?_, ?_, ?_⟩ <;> (rintro rfl; revert h1 h2; decide)

theorem parseDigits_digits {ds : Bytes} (h : Digits ds) (hne : ds ≠ []) : parseDigits ds = some (decVal ds) := by
  unfold parseDigits
  rw [if_neg]
  · rfl
  · simp only [Bool.or_eq_true, List.isEmpty_iff, Bool.not_eq_true', not_or, Bool.not_eq_false, List.all_eq_true]
    exact ⟨hne, fun c hc => digit_isDigitB.2 (h c hc)⟩

theorem parseSigned_digits {ds : Bytes} (h : Digits ds) (hne : ds ≠ []) : parseSigned ds = some (decVal ds : Int) := by
  unfold parseSigned
  split
  · exact absurd rfl (digit_plain (h 0x2D (by simp))).2.2.1
  · exact absurd rfl (digit_plain (h 0x2B (by simp))).2.2.2
  · rw [parseDigits_digits h hne]; rfl

theorem parseSigned_sign (neg : Bool) {ds : Bytes} (h : Digits ds) (hne : ds ≠ []) :
    parseSigned (sign neg ++ ds) = some ((if neg then -1 else 1) * (decVal ds : Int)) := by
  cases neg with
  | false => simpa [sign] using parseSigned_digits h hne
  | true =>
    simp only [sign, if_pos, List.cons_append, List.nil_append, parseSigned, parseDigits_digits h hne]
    simp

theorem takeWhile_stop {p : UInt8 → Bool} {a b : Bytes} (h : ∀ c ∈ a, p c = true) (hb : b = [] ∨ ∃ c t, b = c :: t ∧ p c = false) :
    (a ++ b).takeWhile p = a ∧ (a ++ b).dropWhile p = b := by
  induction a with
  | nil =>
    rcases hb with rfl | ⟨c, t, rfl, hc⟩
    · exact ⟨rfl, rfl⟩
    · simp [hc]
  | cons x a ih =>
    obtain ⟨h1, h2⟩ := ih fun c hc => h c (by simp [hc])
    have hx := h x (by simp)
    simp [hx, h1, h2]

theorem decVal_cat (a b : Bytes) : decVal (a ++ b) = decVal a * 10 ^ b.length + decVal b := by
  have : ∀ (b : Bytes) (n : Nat), b.foldl (fun a c => 10 * a + (c.toNat - 0x30)) n = n * 10 ^ b.length + b.foldl (fun a c => 10 * a + (c.toNat - 0x30)) 0 := by
    intro b
    induction b with
    | nil => simp
    | cons c b ih =>
      intro n
      rw [List.foldl_cons, List.foldl_cons, ih, ih (10 * 0 + _), List.length_cons, Nat.pow_succ]
      simp only [Nat.add_mul, Nat.mul_comm 10 n, Nat.mul_assoc, Nat.mul_comm 10 (10 ^ _)]
      omega
  simp only [decVal, List.foldl_append]
  exact this b _

/-- the parts of a decimal number text, and what it counts as -/
theorem newFromString_parts (neg : Bool) {ip fp ds ep : Bytes} {x : Int} (hip : Digits ip) (hds : Digits ds) (hfp : fp = [] ∧ ds = [] ∨ fp = 0x2E :: ds) (hne : ip ++ ds ≠ [])
    (hep : ep = [] ∧ x = 0 ∨ ∃ e sg d, ep = e :: sg ++ d ∧ (e = 0x65 ∨ e = 0x45) ∧ Digits d ∧ d ≠ [] ∧
        ((sg = [] ∨ sg = [0x2B]) ∧ x = decVal d ∨ sg = [0x2D] ∧ x = - (decVal d : Int))) :
    valOf newFromString (sign neg ++ ip ++ fp ++ ep) = if -2 ^ 31 ≤ x - ds.length ∧ x < 2 ^ 31 then
      (if neg then -1 else 1) * ((decVal ip : Rat) + (decVal ds : Rat) / (10 : Rat) ^ ds.length) * (10 : Rat) ^ x else 0 := by
    have hzero : (Option.getD none (⟨0, 0⟩ : Dec)).val = 0 := by decide +kernel
    have hsg : ∀ c ∈ sign neg, isE c = false ∧ isDot c = false := by
      intro c hc; cases neg <;> simp [sign] at hc; subst hc; decide
    have hbody : (sign neg ++ ip ++ fp ++ ep).takeWhile (fun c => !isE c) = sign neg ++ ip ++ fp ∧
        (sign neg ++ ip ++ fp ++ ep).dropWhile (fun c => !isE c) = ep := by
      refine takeWhile_stop ?_ ?_
      · intro c hc
        simp only [List.mem_append] at hc
        rcases hc with (hc | hc) | hc
        · simp [(hsg c hc).1]
        · simp [(digit_plain (hip c hc)).1]
        · rcases hfp with ⟨rfl, -⟩ | rfl
          · cases hc
          · rcases List.mem_cons.1 hc with rfl | hc
            · decide
            · simp [(digit_plain (hds c hc)).1]
      · rcases hep with ⟨rfl, -⟩ | ⟨e, sg, d, rfl, he, -⟩
        · exact .inl rfl
        · refine .inr ⟨e, sg ++ d, rfl, ?_⟩
          rcases he with rfl | rfl <;> decide
    have hx : parseExp ep = if fitsInt32 x then some x else none := by
      rcases hep with ⟨rfl, rfl⟩ | ⟨e, sg, d, rfl, he, hd, hdn, hsx⟩
      · rfl
      · have hp : parseSigned (sg ++ d) = some x := by
          rcases hsx with ⟨rfl | rfl, rfl⟩ | ⟨rfl, rfl⟩
          · simpa using parseSigned_digits hd hdn
          · simp [parseSigned, parseDigits_digits hd hdn]
          · simp [parseSigned, parseDigits_digits hd hdn]
        simp only [List.cons_append, parseExp, hp, Option.bind_some]
    have hm : (if neg = true then (-1 : Rat) else 1) = ((if neg = true then (-1 : Int) else 1 : Int) : Rat) := by cases neg <;> rfl
    simp only [valOf, decOf, newFromString]
    rw [hbody.1, hbody.2, hx]
    by_cases hf : fitsInt32 x = true
    case neg =>
      have hr : ¬ (-2 ^ 31 ≤ x - (ds.length : Int) ∧ x < 2 ^ 31) := by
        simp only [fitsInt32, Bool.and_eq_true, decide_eq_true_eq] at hf
        rcases hep with ⟨-, rfl⟩ | ⟨e, sg, d, -, -, -, -, h | h⟩ <;> omega
      rw [if_neg hf, if_neg hr]
      exact hzero
    rw [if_pos hf]
    simp only
    rcases hfp with ⟨rfl, rfl⟩ | rfl
    · have hsplit := takeWhile_stop (p := fun c => !isDot c) (a := sign neg ++ ip) (b := []) (by
        intro c hc
        rcases List.mem_append.1 hc with hc | hc
        · simp [(hsg c hc).2]
        · simp [(digit_plain (hip c hc)).2.1]) (.inl rfl)
      rw [hsplit.1, hsplit.2]
      simp only
      rw [parseSigned_sign neg hip (by simpa using hne)]
      simp only
      have hr : -2 ^ 31 ≤ x - (([] : Bytes).length : Int) ∧ x < 2 ^ 31 := by
        simp only [fitsInt32, Bool.and_eq_true, decide_eq_true_eq] at hf; simp only [List.length_nil]; omega
      rw [if_pos hf, if_pos hr]
      simp only [Option.getD_some, Dec.val, Rat.intCast_mul, hm, List.length_nil, Rat.pow_zero]
      have : (decVal [] : Rat) / 1 = 0 := by rw [show decVal [] = 0 from rfl]; decide +kernel
      rw [this, Rat.add_zero]
      rfl
    · have hsplit := takeWhile_stop (p := fun c => !isDot c) (a := sign neg ++ ip) (b := 0x2E :: ds) (by
        intro c hc
        rcases List.mem_append.1 hc with hc | hc
        · simp [(hsg c hc).2]
        · simp [(digit_plain (hip c hc)).2.1]) (.inr ⟨_, _, rfl, by decide⟩)
      rw [hsplit.1, hsplit.2]
      simp only
      rw [if_neg (by
        simp only [List.any_eq_true, not_exists, not_and]
        intro c hc; simp [(digit_plain (hds c hc)).2.1])]
      rw [List.append_assoc, parseSigned_sign neg (fun c hc => by rcases List.mem_append.1 hc with hc | hc; exact hip c hc; exact hds c hc) hne]
      simp only
      by_cases hf2 : fitsInt32 (x - ds.length) = true
      case neg =>
        have hr : ¬ (-2 ^ 31 ≤ x - (ds.length : Int) ∧ x < 2 ^ 31) := by
          simp only [fitsInt32, Bool.and_eq_true, decide_eq_true_eq] at hf hf2; omega
        rw [if_neg hf2, if_neg hr]
        exact hzero
      have hr : -2 ^ 31 ≤ x - (ds.length : Int) ∧ x < 2 ^ 31 := by
        simp only [fitsInt32, Bool.and_eq_true, decide_eq_true_eq] at hf hf2; omega
      rw [if_pos hf2, if_pos hr]
      simp only [Option.getD_some, Dec.val, Rat.intCast_mul, hm]
      rw [decVal_cat]
      have h10 : (10 : Rat) ^ ds.length ≠ 0 := by
        intro h0
        have := ten_pos (ds.length : Int)
        rw [Rat.zpow_natCast, h0] at this
        exact absurd this (by decide)
      generalize (if neg = true then (-1 : Int) else 1) = g at *
      rw [show x - (ds.length : Int) = x + -(ds.length : Int) by omega, Rat.zpow_add (by decide), Rat.zpow_neg, Rat.zpow_natCast]
      rw [Rat.intCast_natCast, Rat.natCast_add, Rat.natCast_mul, Rat.natCast_pow]
      rw [show ((10 : Nat) : Rat) = 10 from rfl]
      generalize (10 : Rat) ^ ds.length = y at *
      generalize (10 : Rat) ^ x = z at *
      generalize (decVal ip : Rat) = a
      generalize (decVal ds : Rat) = b
      grind

theorem newFromString_counts {t : Bytes} {q : Rat} (h : CountsAs t q) : valOf newFromString t = q := by
  cases h with
  | value neg ip fp ds ep x hip hds hfp hne hep h1 h2 => rw [newFromString_parts neg hip hds hfp hne hep, if_pos ⟨h1, h2⟩]
  | zero neg ip fp ds ep x hip hds hfp hne hep h1 => rw [newFromString_parts neg hip hds hfp hne hep, if_neg (by omega)]

/-- every decimal number text counts as something: its value or 0 -/
theorem counts_of_value {t : Bytes} {q : Rat} (h : TextValue t q) : CountsAs t q ∨ CountsAs t 0 := by
  cases h with
  | mk neg ip fp ds ep x hip hds hfp hne hep =>
    by_cases hr : -2 ^ 31 ≤ x - ds.length ∧ x < 2 ^ 31
    · exact .inl (.value neg ip fp ds ep x hip hds hfp hne hep hr.1 hr.2)
    · exact .inr (.zero neg ip fp ds ep x hip hds hfp hne hep (by omega))

theorem counts_of_small {t : Bytes} {q : Rat} (h : TextValue t q) (hs : SmallExp t) : CountsAs t q := by
  cases h with
  | mk neg ip fp ds ep x hip hds hfp hne hep =>
    obtain ⟨hlen, hexp⟩ := hs
    have hl : (ds.length : Int) ≤ ((sign neg ++ ip ++ fp ++ ep).length : Int) := by
      rcases hfp with ⟨rfl, rfl⟩ | rfl <;> simp <;> omega
    have hr : -2 ^ 31 ≤ x - ds.length ∧ x < 2 ^ 31 := by
      rcases hep with ⟨rfl, rfl⟩ | ⟨e, sg, d, rfl, he, hd, hdn, hsx⟩
      · omega
      · have hb := hexp (sign neg ++ ip ++ fp) e sg d (by simp) he (by rcases hsx with ⟨h | h, -⟩ | ⟨h, -⟩ <;> simp [h]) hd
        rcases hsx with ⟨-, rfl⟩ | ⟨-, rfl⟩ <;> omega
    exact .value neg ip fp ds ep x hip hds hfp hne hep hr.1 hr.2

theorem newFromString_val {t : Bytes} {q : Rat} (h : TextValue t q) (hs : SmallExp t) : valOf newFromString t = q :=
  newFromString_counts (counts_of_small h hs)

end JV
