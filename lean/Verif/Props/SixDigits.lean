import Verif.Proofs.SixDigits
import Verif.Props.FewDigits
/-!
C86 for float32, without conditions on the rounding.
-/
namespace JV
open Spec

/-- A number in a document that is written with at most 6 significant digits and is zero or between 2^-126 and 3.40282e38 is read by Float32() as the nearest float32 — rounding twice (C83)
does no harm —, and is the number that is written for NewFloat32 of that; the two values are Equal. An integer has to be below 2^64. -/
theorem C86_six (E : Env) (hE : Ieee E) (O : DigitFn) (hO : GoDigits O) (s x : Bytes) (v : V) (t : Bytes) (n : Num) (q : Rat)
    (h : goUnmarshal E s = .ok (x, v, none)) (hg : FoundIn E v t n) (hs : ShortExp t) (hw : Digits t → decVal t < 2 ^ 64) (hq : TextValue t q)
    (h6 : FewDigits 6 q) (hr : q = 0 ∨ (2 : Rat) ^ (-126 : Int) ≤ q.abs) (hmax : q.abs ≤ 340282 * (10 : Rat) ^ (33 : Int)) :
    ∃ c f u m, Nearest single q.abs c ∧ c < single.inf ∧ float32 E (.num t n) = .ok (pack32 (t.head? == some 0x2D) c) ∧ Widened (pack32 (t.head? == some 0x2D) c) f ∧
      newFloat E (newFloatText O) true f = .num u m ∧ TextValue u q ∧
      (∀ S d opts, marshal E S d (newFloat E (newFloatText O) true f) opts = .ok (u, none)) ∧
      (t.length < 2 ^ 30 → equal newFromString (.num t n) (newFloat E (newFloatText O) true f) = true) := by
  obtain ⟨q', b, h1, h2, h3, h4⟩ := C83_exact E hE s x v t n h hg hs hw
  obtain rfl := textValue_unique hq h1
  have hnn : (0 : Rat) ≤ q.abs := Rat.abs_nonneg
  have e1 : (340282 : Rat) * (10 : Rat) ^ (33 : Int) ≤ single.val (single.inf - 1) := by decide +kernel
  have e2 : single.val (single.inf - 1) = double.val 0x47EFFFFFE0000000 := by decide +kernel
  have hb : b ≤ 0x47EFFFFFE0000000 := nearest_le h2 (by decide) (Rat.le_trans hmax (e2 ▸ e1))
  have hbv := double.val_le hb
  rw [← e2] at hbv
  obtain ⟨c, hc⟩ := nearest_exists single (double.val_nonneg b)
  have hci : c < single.inf := by
    have := nearest_le hc (Nat.sub_le _ _) hbv
    have : 0 < single.inf := by decide
    omega
  obtain ⟨c', hc'⟩ := nearest_exists single hnn
  obtain ⟨h5, h7⟩ := h4 c hc (by omega)
  have hcc : c = c' := by
    refine (h7 c' hc').2 fun a ha hmid => ?_
    have : double.val b = q.abs := by
      rcases hr with rfl | hr
      · refine (nearest_exact h2 (Nat.lt_of_le_of_lt hb (by decide))).2 ⟨0, ?_⟩
        rw [double.val_zero]
        rfl
      · obtain ⟨m, e, hm, he⟩ := h6
        exact six_mid he hm hr h2 ha hmid
    rw [this]
    split <;> exact Rat.le_refl
  subst hcc
  have h31 : c < 2 ^ 31 := Nat.lt_trans hci (by decide)
  obtain ⟨f, hf, -⟩ := widened_exists (pack32 (t.head? == some 0x2D) c) (by rw [(pack32_parts h31).1]; exact hci)
  obtain ⟨u, m, h8, h9, h10, h11⟩ := C86_float32 E O hO t n q c f hs hq h6 hr hc' hci h5 fun g hg => by
    rw [h5] at hg
    cases hg
    exact hf
  exact ⟨c, f, u, m, hc', hci, h5, hf, h8, h9, h10, h11⟩

-- -1.5
example (E : Env) (hE : Ieee E) (O : DigitFn) (hO : GoDigits O) : ∃ n g f, goUnmarshal E (asc "-1.5") = .ok (asc "-1.5", .num (asc "-1.5") n, none) ∧
    float32 E (.num (asc "-1.5") n) = .ok g ∧ Widened g f ∧ equal newFromString (.num (asc "-1.5") n) (newFloat E (newFloatText O) true f) = true := by
  obtain ⟨h1, h2, h3⟩ := lit_half hE
  obtain ⟨c, f, u, m, -, -, h4, h5, -, -, -, h6⟩ := C86_six E hE O hO _ _ _ _ _ _ h3 (.inl rfl) h1 (fun h => absurd (h 0x2E (by decide +kernel)) (by unfold Digit; decide)) h2
    ⟨15, -1, by decide, by decide +kernel⟩ (.inr (by decide +kernel)) (by decide +kernel)
  exact ⟨_, _, f, h3, h4, h5, h6 (by decide +kernel)⟩

/-- Seven digits may be too many: 7.038531e-26 (C83_wrong). -/
theorem C86_seven (E : Env) (hE : Ieee E) : ∃ n c, goUnmarshal E (asc "7.038531e-26") = .ok (asc "7.038531e-26", .num (asc "7.038531e-26") n, none) ∧
    TextValue (asc "7.038531e-26") (7038531 / 100000000000000000000000000000000) ∧ FewDigits 7 (7038531 / 100000000000000000000000000000000) ∧
    Nearest single (7038531 / 100000000000000000000000000000000) c ∧ float32 E (.num (asc "7.038531e-26") n) ≠ .ok (pack32 false c) := by
  obtain ⟨w, h1, h2, h3⟩ := C83_wrong E hE
  obtain ⟨-, h4, h5⟩ := lit_tie hE
  rw [h1] at h5
  have hw : w = .num (asc "7.038531e-26") (numOf E (asc "7.038531e-26")) := by cases h5; rfl
  subst hw
  refine ⟨_, _, h1, h4, ⟨7038531, -32, by decide, by decide +kernel⟩, h3, ?_⟩
  rw [h2]
  intro h
  injection h with h
  revert h
  decide +kernel

end JV
