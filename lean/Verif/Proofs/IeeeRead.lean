import Verif.Proofs.IeeeShort
import Verif.Proofs.RoundTrip
import Verif.Proofs.ExactMore
/-!
What the numbers of a parsed value are.
-/
namespace JV
open Spec

/-- a number as Unmarshal reads it -/
def ReadNum (E : Env) (v : V) : Prop := ∀ t n, v = .num t n → unmarshal E t = .ok (.num t n)

theorem closed_readNum (E : Env) : Closed E (ReadNum E) where
  put := fun v s d h => by
    match v, s, h with
    | .obj n kvs low, .key k, h => exact fun _ _ e => by cases e
    | .obj n kvs low, .idx k, h => exact fun _ _ e => by cases e
    | .arr xs, .key k, h => exact fun _ _ e => by cases e
    | .arr xs, .idx i, h => exact fun _ _ e => by cases e
    | .nilp, _, h => exact h
    | .notExist, _, h => exact h
    | .str _, _, h => exact h
    | .num _ _, _, h => exact h
    | .bool _, _, h => exact h
    | .null, _, h => exact h
  arr := fun _ _ _ e => by cases e
  obj0 := fun _ _ e => by cases e
  setKey := fun n kvs low k c h _ _ e => by cases e
  del := fun n kvs low k h _ _ e => by cases e
  low := fun cl n kvs low k h _ _ e => by cases e

theorem her_unmarshal_readNum {E : Env} {s : Bytes} {v : V} (h : unmarshal E s = .ok v) : Her (ReadNum E) v := by
  obtain ⟨j, ⟨b1, t, b2, -, -, hv, -⟩, rfl⟩ := (unmarshal_iff E s v).1 h
  exact denotes_nums (E := E) (toV_denotes E (fun t n => unmarshal E t = .ok (.num t n)) j (AllNums_mono (fun t ht => unmarshal_numTok ht) j (lval_nums hv)))

/-- what Get finds in a parsed value -/
theorem get_parsed {E : Env} {s : Bytes} {v : V} (h : unmarshal E s = .ok v) {cl : Bool} {ps : List Param} {t : Bytes} {n : Num}
    (hg : (getC E cl v ps).2 = .ok (.num t n)) : NumTok E t ∧ n = numOf E t := by
  have h1 := her_getC (closed_readNum E) cl ps (her_unmarshal_readNum h)
  unfold getC fetch at hg
  dsimp only at hg
  match hr : (resolve E cl v ps).2 with
  | .ok l =>
    rw [hr, R.bind_ok] at hg
    split at hg
    · rename_i c hc
      cases hg
      exact unmarshal_num_text (h1 l _ hc t n rfl)
    · cases hg
  | .err e => rw [hr] at hg; cases hg
  | .panic => rw [hr] at hg; cases hg
  | .diverge => rw [hr] at hg; cases hg

/-! ### texts and their values -/

theorem abs_sign (neg : Bool) {q : Rat} (h : 0 ≤ q) : ((if neg then -1 else 1) * q).abs = q := by
  cases neg with
  | true => rw [if_pos rfl, Rat.abs_of_nonpos (by grind)]; grind
  | false => rw [if_neg (by decide), Rat.abs_of_nonneg (by grind)]; grind

/-- value of a text of digits with a sign, leading zeros allowed -/
theorem intText_value (neg : Bool) {ip : Bytes} (hd : Digits ip) (hne : ip ≠ []) :
    ∃ q, TextValue (sign neg ++ ip) q ∧ q.abs = (decVal ip : Rat) ∧ q = ((intVal neg ip : Int) : Rat) := by
  have ht := TextValue.mk neg ip [] [] [] 0 hd (by intro c hc; cases hc) (.inl ⟨rfl, rfl⟩) (by simpa using hne) (.inl ⟨rfl, rfl⟩)
  rw [List.append_nil, List.append_nil] at ht
  have e0 : (decVal [] : Rat) / (10 : Rat) ^ ([] : Bytes).length = 0 := by decide +kernel
  have e1 : (10 : Rat) ^ (0 : Int) = 1 := by decide +kernel
  rw [e0, e1, Rat.mul_one, Rat.add_zero] at ht
  refine ⟨_, ht, abs_sign neg Rat.natCast_nonneg, ?_⟩
  unfold intVal
  cases neg with
  | true => rw [if_pos rfl, if_pos rfl, Rat.intCast_neg, show ((decVal ip : Int) : Rat) = (decVal ip : Rat) from rfl]; grind
  | false => rw [if_neg (by decide), if_neg (by decide), show ((decVal ip : Int) : Rat) = (decVal ip : Rat) from rfl]; grind

theorem floatParts_value {neg : Bool} {ip fp ep : Bytes} (h1 : Digits ip) (h2 : fp = [] ∨ FracPart fp) (h3 : ep = [] ∨ ExpPart ep) (h5 : ip = [] → neg = true ∧ fp ≠ []) :
    ∃ q, TextValue (sign neg ++ ip ++ fp ++ ep) q ∧ ((sign neg ++ ip ++ fp ++ ep).head? == some 0x2D) = neg := by
  have hf : ∃ ds, Digits ds ∧ (fp = [] ∧ ds = [] ∨ fp = 0x2E :: ds) ∧ (fp ≠ [] → ds ≠ []) := by
    rcases h2 with rfl | ⟨ds, rfl, h6, h7⟩
    · exact ⟨[], (by intro c hc; cases hc), .inl ⟨rfl, rfl⟩, fun h => absurd rfl h⟩
    · exact ⟨ds, (by first | exact h6 | exact h7), .inr rfl, fun _ => (by first | exact h6 | exact h7)⟩
  obtain ⟨ds, hds, hfp, hfn⟩ := hf
  have hx : ∃ x : Int, ep = [] ∧ x = 0 ∨ ∃ e sg d, ep = e :: sg ++ d ∧ (e = 0x65 ∨ e = 0x45) ∧ Digits d ∧ d ≠ [] ∧
        ((sg = [] ∨ sg = [0x2B]) ∧ x = decVal d ∨ sg = [0x2D] ∧ x = - (decVal d : Int)) := by
    rcases h3 with rfl | ⟨e, sg, d, rfl, he, hsg, hd1, hd2⟩
    · exact ⟨0, .inl ⟨rfl, rfl⟩⟩
    · rcases hsg with hsg | hsg | hsg
      · exact ⟨decVal d, .inr ⟨e, sg, d, rfl, he, hd2, hd1, .inl ⟨.inl hsg, rfl⟩⟩⟩
      · exact ⟨decVal d, .inr ⟨e, sg, d, rfl, he, hd2, hd1, .inl ⟨.inr hsg, rfl⟩⟩⟩
      · exact ⟨_, .inr ⟨e, sg, d, rfl, he, hd2, hd1, .inr ⟨hsg, rfl⟩⟩⟩
  obtain ⟨x, hx⟩ := hx
  refine ⟨_, TextValue.mk neg ip fp ds ep x h1 hds hfp ?_ hx, ?_⟩
  · intro h0
    have h0 := List.append_eq_nil_iff.1 h0
    exact hfn (h5 h0.1).2 h0.2
  · rw [List.append_assoc, List.append_assoc]
    refine head_minus fun c hc => ?_
    cases ip with
    | cons y u => simp at hc; exact (digit_notMinus (h1 c (by simp [hc]))).1
    | nil =>
      rcases hfp with ⟨rfl, -⟩ | rfl
      · exact absurd rfl (h5 rfl).2
      · simp at hc; rw [← hc]; decide

/-- a text of `FloatTok` has a value -/
theorem floatTok_value {neg : Bool} {ip fp ep t : Bytes} (h : FloatTok neg ip fp ep t) : ∃ q, TextValue t q ∧ (t.head? == some 0x2D) = neg := by
  obtain ⟨h1, h2, h3, -, h5, -, rfl⟩ := h
  exact floatParts_value h1 h2 h3 h5

/-- every JSON number has a value -/
theorem jnum_value {t : Bytes} (h : JNum t) : ∃ q, TextValue t q := by
  rcases h with ⟨neg, ip, hip, rfl⟩ | ⟨neg, ip, fp, ep, hip, hfp, hep, -, rfl⟩
  · have hd := intPart_digits hip
    obtain ⟨q, hq, -⟩ := floatParts_value (neg := neg) (fp := []) (ep := []) hd.1 (.inl rfl) (.inl rfl) fun h => absurd h hd.2.1
    exact ⟨q, by simpa using hq⟩
  · have hd := intPart_digits hip
    obtain ⟨q, hq, -⟩ := floatParts_value (neg := neg) hd.1 hfp hep fun h => absurd h hd.2.1
    exact ⟨q, hq⟩

theorem intTok_small {neg : Bool} {ds : Bytes} (h : IntTok neg ds) : neg = true → decVal ds < 2 ^ 64 := by
  rintro rfl
  obtain ⟨hd, -, h⟩ := h
  rw [if_pos rfl] at h
  rcases h.2 with h | h
  · have := decVal_le ds hd
    have h2 : 10 ^ ds.length ≤ 10 ^ 18 := Nat.pow_le_pow_right (by omega) h
    have h3 : 10 ^ 18 < 2 ^ 64 := by decide
    omega
  · have h3 : 2 ^ 63 < 2 ^ 64 := by decide
    omega

/-- The Float64 of a number token. -/
theorem token_f64 {E : Env} (hE : Ieee E) {t : Bytes} (h : NumTok E t) (hs : ShortExp t) (hw : Digits t → decVal t < 2 ^ 64) :
    ∃ q b, TextValue t q ∧ Nearest double q.abs b ∧ b < double.inf ∧ (numOf E t).f64 = pack (t.head? == some 0x2D) b := by
  rcases (numTok_iff hE.syntax' t).1 h with ⟨neg, ds, rfl, hi⟩ | ⟨neg, ip, fp, ep, hf, hp⟩
  · obtain ⟨-, hn⟩ := intTok_iff (E := E) neg ds hi.1
    obtain ⟨q, h1, h2, -⟩ := intText_value neg hi.1 hi.2.1
    have hlt : decVal ds < 2 ^ 64 := by
      cases neg with
      | true => exact intTok_small hi rfl
      | false => exact hw hi.1
    obtain ⟨b, hb, hu⟩ := hE.u64 (BitVec.ofNat 64 (decVal ds))
    rw [show (BitVec.ofNat 64 (decVal ds)).toNat = decVal ds by simp; omega] at hb
    have hle := nat_notInf hb hlt
    refine ⟨q, b, h1, by rw [h2]; exact hb, by rw [double_inf]; omega, ?_⟩
    have hm : ((sign neg ++ ds).head? == some 0x2D) = neg := by
      refine head_minus fun c hc => (digit_notMinus (hi.1 c ?_)).1
      cases ds with
      | nil => cases hc
      | cons x u => simp at hc; simp [hc]
    rw [hn hi, hm]
    unfold intNum
    cases neg with
    | true => rw [if_pos rfl]; show fneg (E.u64ToF64 _) = _; rw [hu, fneg_pack (by omega)]
    | false => rw [if_neg (by decide)]; exact hu
  · obtain ⟨q, h1, h2⟩ := floatTok_value hf
    obtain ⟨b, hb, hpf⟩ := hE.parse t q h1 hs
    have hbi : b ≠ double.inf := by
      intro h0
      rw [if_pos h0] at hpf
      exact hp hpf
    rw [if_neg hbi] at hpf
    obtain ⟨-, hn⟩ := floatTok_ok hf hpf
    refine ⟨q, b, h1, hb, by have := hb.le; omega, ?_⟩
    rw [hn]
    rfl

end JV
