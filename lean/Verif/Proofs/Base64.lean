import Verif.Model.Base64
import Verif.Spec.Base64
/-! Base64 encoding and decoding are inverse and follow RFC 4648. -/
namespace JV
open Spec

theorem bitsOf_eight (x : Nat) : bitsOf 8 x = [x.testBit 7, x.testBit 6, x.testBit 5, x.testBit 4, x.testBit 3, x.testBit 2, x.testBit 1, x.testBit 0] := rfl
theorem bitsOf_six (x : Nat) : bitsOf 6 x = [x.testBit 5, x.testBit 4, x.testBit 3, x.testBit 2, x.testBit 1, x.testBit 0] := rfl

theorem bitsOf_length (n x : Nat) : (bitsOf n x).length = n := by simp [bitsOf]

theorem byte_high (a : UInt8) (i : Nat) (h : 8 ≤ i) : a.toNat.testBit i = false :=
  Nat.testBit_lt_two_pow (Nat.lt_of_lt_of_le a.toNat_lt (Nat.pow_le_pow_right (by decide) h))

theorem digit_high {d : Nat} (hd : d < 64) (i : Nat) (h : 6 ≤ i) : d.testBit i = false :=
  Nat.testBit_lt_two_pow (Nat.lt_of_lt_of_le hd (Nat.pow_le_pow_right (n := 2) (by decide) h))

theorem mask_bits : Nat.testBit 63 5 = true ∧ Nat.testBit 63 4 = true ∧ Nat.testBit 63 3 = true ∧ Nat.testBit 63 2 = true ∧ Nat.testBit 63 1 = true ∧
    Nat.testBit 63 0 = true := by decide

theorem ofNat8_bit (x i : Nat) (h : i < 8) : (UInt8.ofNat x).toNat.testBit i = x.testBit i := by
  rw [UInt8.toNat_ofNat', Nat.testBit_mod_two_pow]; simp [h]

theorem bits_ofNat (x : Nat) : bitsOf 8 (UInt8.ofNat x).toNat = bitsOf 8 x := by
  rw [bitsOf_eight, bitsOf_eight]
  simp only [ofNat8_bit x _ (by decide : 7 < 8), ofNat8_bit x _ (by decide : 6 < 8), ofNat8_bit x _ (by decide : 5 < 8), ofNat8_bit x _ (by decide : 4 < 8),
    ofNat8_bit x _ (by decide : 3 < 8), ofNat8_bit x _ (by decide : 2 < 8), ofNat8_bit x _ (by decide : 1 < 8), ofNat8_bit x _ (by decide : 0 < 8)]

theorem octetBits_cons (a : UInt8) (b : Bytes) : octetBits (a :: b) = bitsOf 8 a.toNat ++ octetBits b := rfl
theorem octetBits_append (a b : Bytes) : octetBits (a ++ b) = octetBits a ++ octetBits b := by simp [octetBits]
theorem octetBits_length (b : Bytes) : (octetBits b).length = 8 * b.length := by
  induction b with
  | nil => rfl
  | cons a b ih => rw [octetBits_cons, List.length_append, ih, bitsOf_length, List.length_cons]; omega
theorem sextets_length (ds : List Nat) : (ds.flatMap (bitsOf 6)).length = 6 * ds.length := by
  induction ds with
  | nil => rfl
  | cons a b ih => rw [List.flatMap_cons, List.length_append, ih, bitsOf_length, List.length_cons]; omega

/-! ### encoding -/

theorem b64Enc_char (x : Nat) : b64Enc x = b64Char (x &&& 63) := by
  have h : ∀ d : Fin 64, b64Alphabet.getD d.1 0 = b64Char d.1 := by decide
  have hx : x &&& 63 < 64 := Nat.lt_of_le_of_lt Nat.and_le_right (by decide)
  exact h ⟨x &&& 63, hx⟩

theorem and63_lt (x : Nat) : x &&& 63 < 64 := Nat.lt_of_le_of_lt Nat.and_le_right (by decide)

theorem enc_three (a b c : UInt8) (val : Nat) (hv : val = a.toNat <<< 16 ||| b.toNat <<< 8 ||| c.toNat) :
    octetBits [a, b, c] = [val >>> 18 &&& 63, val >>> 12 &&& 63, val >>> 6 &&& 63, val &&& 63].flatMap (bitsOf 6) := by
  subst hv
  simp [octetBits, bitsOf_eight, bitsOf_six, mask_bits, Nat.testBit_or, Nat.testBit_shiftLeft, Nat.testBit_shiftRight, byte_high]

theorem enc_two (a b : UInt8) (val : Nat) (hv : val = a.toNat <<< 16 ||| b.toNat <<< 8) :
    octetBits [a, b] ++ [false, false] = [val >>> 18 &&& 63, val >>> 12 &&& 63, val >>> 6 &&& 63].flatMap (bitsOf 6) := by
  subst hv
  simp [octetBits, bitsOf_eight, bitsOf_six, mask_bits, Nat.testBit_or, Nat.testBit_shiftLeft, Nat.testBit_shiftRight, byte_high]

theorem enc_one (a : UInt8) (val : Nat) (hv : val = a.toNat <<< 16) :
    octetBits [a] ++ [false, false, false, false] = [val >>> 18 &&& 63, val >>> 12 &&& 63].flatMap (bitsOf 6) := by
  subst hv
  simp [octetBits, bitsOf_eight, bitsOf_six, mask_bits, Nat.testBit_shiftLeft, Nat.testBit_shiftRight, byte_high]

theorem b64Encode_strict : (b : Bytes) → Base64Strict b (b64Encode b)
  | [] => ⟨0, [], 0, by simp, rfl, by simp, rfl, by omega, rfl⟩
  | [a] => ⟨4, [_, _], 2, by simp [and63_lt], enc_one a _ rfl, by simp, by simp [b64Encode, b64Enc_char, List.replicate], by omega, by simp⟩
  | [a, b] => ⟨2, [_, _, _], 1, by simp [and63_lt], enc_two a b _ rfl, by simp, by simp [b64Encode, b64Enc_char, List.replicate], by omega, by simp⟩
  | a :: b :: c :: rest => by
    obtain ⟨n, ds, pad, h1, h2, h3, h4, h5, h6⟩ := b64Encode_strict rest
    have e3 := enc_three a b c _ rfl
    generalize hv : a.toNat <<< 16 ||| b.toNat <<< 8 ||| c.toNat = val at e3
    refine ⟨n, (val >>> 18 &&& 63) :: (val >>> 12 &&& 63) :: (val >>> 6 &&& 63) :: (val &&& 63) :: ds, pad, ?_, ?_, h3, ?_, h5, ?_⟩
    rotate_left
    · have e : a :: b :: c :: rest = [a, b, c] ++ rest := rfl
      rw [e, octetBits_append, List.append_assoc, h2, e3]
      simp only [List.flatMap_cons, List.flatMap_nil, List.append_nil, List.append_assoc]
    · simp [b64Encode, b64Enc_char, h4, hv]
    · simp only [List.length_cons]; omega
    · intro d hd
      simp only [List.mem_cons] at hd
      rcases hd with rfl | rfl | rfl | rfl | hd
      · exact and63_lt _
      · exact and63_lt _
      · exact and63_lt _
      · exact and63_lt _
      · exact h1 d hd

/-! ### decoding -/

theorem b64Dec_iff (c : UInt8) (d : Nat) : b64Dec c = some d ↔ d < 64 ∧ c = b64Char d := by
  have h1 : ∀ c : Fin 256, ∀ d ∈ b64Dec (UInt8.ofNat c.1), d < 64 ∧ UInt8.ofNat c.1 = b64Char d := by decide +kernel
  have h2 : ∀ d : Fin 64, b64Dec (b64Char d.1) = some d.1 := by decide +kernel
  constructor
  · intro h
    have := h1 ⟨c.toNat, c.toNat_lt⟩ d (by simpa using h)
    simpa using this
  · rintro ⟨h, rfl⟩; exact h2 ⟨d, h⟩

theorem b64Char_ne (d : Nat) : b64Char d ≠ 61 := by
  by_cases h : d < 64
  · have h2 : ∀ d : Fin 64, b64Char d.1 ≠ 61 := by decide +kernel
    exact h2 ⟨d, h⟩
  · simp [b64Char, show ¬ d < 26 by omega, show ¬ d < 52 by omega, show ¬ d < 62 by omega, show d ≠ 62 by omega]

theorem b64Dec_char {d : Nat} (h : d < 64) : b64Dec (b64Char d) = some d := (b64Dec_iff _ _).2 ⟨h, rfl⟩

theorem dec_four {x y z w : Nat} (hx : x < 64) (hy : y < 64) (hz : z < 64) (hw : w < 64) :
    octetBits (b64Quantum [x, y, z, w]) = [x, y, z, w].flatMap (bitsOf 6) := by
  simp only [b64Quantum, octetBits, List.length_cons, List.length_nil, Nat.add_sub_cancel, List.take_succ_cons, List.take_zero, List.flatMap_cons, List.flatMap_nil, bits_ofNat]
  simp [bitsOf_eight, bitsOf_six, Nat.testBit_or, Nat.testBit_shiftLeft, Nat.testBit_shiftRight,
    digit_high hx, digit_high hy, digit_high hz, digit_high hw]

theorem dec_three {x y z : Nat} (hx : x < 64) (hy : y < 64) (hz : z < 64) :
    octetBits (b64Quantum [x, y, z]) ++ [z.testBit 1, z.testBit 0] = [x, y, z].flatMap (bitsOf 6) := by
  simp only [b64Quantum, octetBits, List.length_cons, List.length_nil, Nat.add_sub_cancel, List.take_succ_cons, List.take_zero, List.flatMap_cons, List.flatMap_nil, bits_ofNat]
  simp [bitsOf_eight, bitsOf_six, Nat.testBit_or, Nat.testBit_shiftLeft, Nat.testBit_shiftRight,
    digit_high hx, digit_high hy, digit_high hz]

theorem dec_two {x y : Nat} (hx : x < 64) (hy : y < 64) :
    octetBits (b64Quantum [x, y]) ++ [y.testBit 3, y.testBit 2, y.testBit 1, y.testBit 0] = [x, y].flatMap (bitsOf 6) := by
  simp only [b64Quantum, octetBits, List.length_cons, List.length_nil, Nat.add_sub_cancel, List.take_succ_cons, List.take_zero, List.flatMap_cons, List.flatMap_nil, bits_ofNat]
  simp [bitsOf_eight, bitsOf_six, Nat.testBit_or, Nat.testBit_shiftLeft, Nat.testBit_shiftRight,
    digit_high hx, digit_high hy]

theorem quad_sound {x y z w : Nat} (hx : x < 64) (hy : y < 64) (hz : z < 64) (hw : w < 64) {tail : List Bool} {out rest : Bytes}
    (h : Base64 tail out rest) :
    Base64 tail (b64Quantum [x, y, z, w] ++ out) (b64Char x :: b64Char y :: b64Char z :: b64Char w :: rest) := by
  obtain ⟨ds, pad, h1, h2, h3, h4, h5, h6⟩ := h
  refine ⟨x :: y :: z :: w :: ds, pad, ?_, ?_, h3, ?_, h5, ?_⟩
  · simp [hx, hy, hz, hw]; exact h1
  · rw [octetBits_append, List.append_assoc, h2, dec_four hx hy hz hw]
    simp [List.flatMap_cons]
  · simp [h4]
  · simp only [List.length_cons]; omega

theorem b64DecodeQ_sound : (t b : Bytes) → b64DecodeQ t = some b → ∃ tail, Base64 tail b t
  | [], b, h => by
    cases h; exact ⟨[], [], 0, by simp, rfl, by simp, rfl, by omega, rfl⟩
  | [p, q, r, s], b, h => by
    rw [b64DecodeQ] at h
    cases hp : b64Dec p with
    | none => simp [hp] at h
    | some x =>
    cases hq : b64Dec q with
    | none => simp [hp, hq] at h
    | some y =>
    obtain ⟨hx, rfl⟩ := (b64Dec_iff _ _).1 hp
    obtain ⟨hy, rfl⟩ := (b64Dec_iff _ _).1 hq
    simp only [hp, hq] at h
    by_cases hr : r = 61
    · by_cases hs : s = 61
      · simp only [hr, hs, if_true, Option.some.injEq] at h; subst h hr hs
        exact ⟨_, [x, y], 2, by simp [hx, hy], dec_two hx hy, by simp, by simp [List.replicate], by omega, by simp⟩
      · simp [hr, hs] at h
    · rw [if_neg hr] at h
      cases hr' : b64Dec r with
      | none => simp [hr'] at h
      | some z =>
      simp only [hr'] at h
      obtain ⟨hz, rfl⟩ := (b64Dec_iff _ _).1 hr'
      by_cases hs : s = 61
      · simp only [hs, if_true, Option.some.injEq] at h; subst h hs
        exact ⟨_, [x, y, z], 1, by simp [hx, hy, hz], dec_three hx hy hz, by simp, by simp [List.replicate], by omega, by simp⟩
      · rw [if_neg hs] at h
        cases hs' : b64Dec s with
        | none => simp [hs'] at h
        | some w =>
        simp only [hs', Option.some.injEq] at h; subst h
        obtain ⟨hw, rfl⟩ := (b64Dec_iff _ _).1 hs'
        have := quad_sound hx hy hz hw (tail := []) (out := []) (rest := []) ⟨[], 0, by simp, rfl, by simp, rfl, by omega, rfl⟩
        exact ⟨[], by simpa using this⟩
  | p :: q :: r :: s :: u :: rest, b, h => by
    rw [b64DecodeQ] at h
    · cases hp : b64Dec p with
      | none => simp [hp] at h
      | some x =>
      cases hq : b64Dec q with
      | none => simp [hp, hq] at h
      | some y =>
      cases hr : b64Dec r with
      | none => simp [hp, hq, hr] at h
      | some z =>
      cases hs : b64Dec s with
      | none => simp [hp, hq, hr, hs] at h
      | some w =>
      cases ho : b64DecodeQ (u :: rest) with
      | none => simp [hp, hq, hr, hs, ho] at h
      | some out =>
      simp only [hp, hq, hr, hs, ho, Option.some.injEq] at h; subst h
      obtain ⟨hx, rfl⟩ := (b64Dec_iff _ _).1 hp
      obtain ⟨hy, rfl⟩ := (b64Dec_iff _ _).1 hq
      obtain ⟨hz, rfl⟩ := (b64Dec_iff _ _).1 hr
      obtain ⟨hw, rfl⟩ := (b64Dec_iff _ _).1 hs
      obtain ⟨tail, ht⟩ := b64DecodeQ_sound (u :: rest) out ho
      exact ⟨tail, quad_sound hx hy hz hw ht⟩
    · simp
  | [_], b, h => by simp [b64DecodeQ] at h
  | [_, _], b, h => by simp [b64DecodeQ] at h
  | [_, _, _], b, h => by simp [b64DecodeQ] at h

/-- any text of the right shape decodes to something -/
theorem b64DecodeQ_total : (ds : List Nat) → (pad : Nat) → (∀ d ∈ ds, d < 64) → pad < 3 → (ds.length + pad) % 4 = 0 →
    ∃ b, b64DecodeQ (ds.map b64Char ++ List.replicate pad 61) = some b
  | [], pad, _, hp, hl => by
    have : pad = 0 := by simp at hl; omega
    subst this; exact ⟨[], rfl⟩
  | [x], pad, _, hp, hl => by simp at hl; omega
  | [x, y], pad, hd, hp, hl => by
    have : pad = 2 := by simp at hl; omega
    subst this
    exact ⟨b64Quantum [x, y], by simp [List.replicate, b64DecodeQ, b64Dec_char (hd x (by simp)), b64Dec_char (hd y (by simp))]⟩
  | [x, y, z], pad, hd, hp, hl => by
    have : pad = 1 := by simp at hl; omega
    subst this
    exact ⟨b64Quantum [x, y, z], by simp [List.replicate, b64DecodeQ, b64Dec_char (hd x (by simp)), b64Dec_char (hd y (by simp)), b64Dec_char (hd z (by simp)), b64Char_ne]⟩
  | x :: y :: z :: w :: ds, pad, hd, hp, hl => by
    obtain ⟨out, ho⟩ := b64DecodeQ_total ds pad (fun d h => hd d (by simp [h])) hp (by simp only [List.length_cons] at hl; omega)
    have hx := b64Dec_char (hd x (by simp)); have hy := b64Dec_char (hd y (by simp))
    have hz := b64Dec_char (hd z (by simp)); have hw := b64Dec_char (hd w (by simp))
    cases hr : ds.map b64Char ++ List.replicate pad 61 with
    | nil =>
      simp only [List.map_cons, List.cons_append, hr]
      exact ⟨_, by simp [b64DecodeQ, hx, hy, hz, hw, b64Char_ne]; rfl⟩
    | cons u rest =>
      simp only [List.map_cons, List.cons_append, hr]
      rw [hr] at ho
      rw [b64DecodeQ]
      · exact ⟨_, by simp only [hx, hy, hz, hw, ho]; rfl⟩
      · simp

/-! ### uniqueness -/

theorem byte_of_bits (a b : UInt8) (h : bitsOf 8 a.toNat = bitsOf 8 b.toNat) : a = b := by
  apply UInt8.toNat.inj
  apply Nat.eq_of_testBit_eq
  intro i
  by_cases hi : 8 ≤ i
  · rw [byte_high a i hi, byte_high b i hi]
  · simp only [bitsOf_eight, List.cons.injEq] at h
    obtain ⟨h7, h6, h5, h4, h3, h2, h1, h0, -⟩ := h
    match i, hi with
    | 0, _ => exact h0
    | 1, _ => exact h1
    | 2, _ => exact h2
    | 3, _ => exact h3
    | 4, _ => exact h4
    | 5, _ => exact h5
    | 6, _ => exact h6
    | 7, _ => exact h7
    | n + 8, hi => exact absurd (by omega) hi

theorem octetBits_inj : (a b : Bytes) → a.length = b.length → ∀ {s t : List Bool}, octetBits a ++ s = octetBits b ++ t → a = b
  | [], [], _, _, _, _ => rfl
  | x :: a, y :: b, hl, s, t, h => by
    rw [octetBits_cons, octetBits_cons, List.append_assoc, List.append_assoc] at h
    have h' := List.append_inj h (by rw [bitsOf_length, bitsOf_length])
    rw [byte_of_bits x y h'.1, octetBits_inj a b (by simpa using hl) h'.2]
  | [], _ :: _, hl, _, _, _ => by simp at hl
  | _ :: _, [], hl, _, _, _ => by simp at hl

theorem b64Char_inj {c d : Nat} (hc : c < 64) (hd : d < 64) (h : b64Char c = b64Char d) : c = d := by
  have := b64Dec_char hc
  rw [h, b64Dec_char hd] at this
  cases this; rfl

theorem digits_unique : (ds es : List Nat) → (p q : Nat) → (∀ d ∈ ds, d < 64) → (∀ d ∈ es, d < 64) →
    ds.map b64Char ++ List.replicate p 61 = es.map b64Char ++ List.replicate q 61 → ds = es
  | [], [], _, _, _, _, _ => rfl
  | d :: ds, e :: es, p, q, hd, he, h => by
    simp only [List.map_cons, List.cons_append, List.cons.injEq] at h
    rw [b64Char_inj (hd d (by simp)) (he e (by simp)) h.1,
      digits_unique ds es p q (fun x hx => hd x (by simp [hx])) (fun x hx => he x (by simp [hx])) h.2]
  | [], e :: es, p, q, _, _, h => by
    cases p with
    | zero => simp at h
    | succ p => simp only [List.map_nil, List.nil_append, List.replicate_succ, List.map_cons, List.cons_append, List.cons.injEq] at h; exact absurd h.1.symm (b64Char_ne e)
  | d :: ds, [], p, q, _, _, h => by
    cases q with
    | zero => simp at h
    | succ p => simp only [List.map_nil, List.nil_append, List.replicate_succ, List.map_cons, List.cons_append, List.cons.injEq] at h; exact absurd h.1 (b64Char_ne d)

theorem base64_unique {s s' : List Bool} {b b' t : Bytes} (h : Base64 s b t) (h' : Base64 s' b' t) : b = b' := by
  obtain ⟨ds, p, h1, h2, h3, h4, h5, h6⟩ := h
  obtain ⟨es, q, g1, g2, g3, g4, g5, g6⟩ := h'
  have e := digits_unique ds es p q h1 g1 (by rw [← h4, ← g4])
  subst e
  have l1 := congrArg List.length h2
  have l2 := congrArg List.length g2
  rw [List.length_append, octetBits_length, sextets_length] at l1 l2
  exact octetBits_inj b b' (by omega) (h2.trans g2.symm)

theorem base64_pad {s : List Bool} {b t : Bytes} (h : Base64 s b t) : ∃ b', b64DecodeQ t = some b' := by
  obtain ⟨ds, p, h1, h2, h3, h4, h5, h6⟩ := h
  have l1 := congrArg List.length h2
  rw [List.length_append, octetBits_length, sextets_length] at l1
  rw [h4]
  exact b64DecodeQ_total ds p h1 (by omega) h6

theorem b64DecodeQ_iff (t b : Bytes) : b64DecodeQ t = some b ↔ ∃ tail, Base64 tail b t := by
  constructor
  · exact b64DecodeQ_sound t b
  · rintro ⟨tail, h⟩
    obtain ⟨b', hb'⟩ := base64_pad h
    obtain ⟨_, h'⟩ := b64DecodeQ_sound t b' hb'
    rw [base64_unique h h', hb']

theorem b64Decode_iff (t b : Bytes) : b64Decode t = some b ↔ ∃ tail, Base64 tail b (noBreaks t) := b64DecodeQ_iff _ _

theorem b64Char_break (d : Nat) : b64Char d ≠ 10 ∧ b64Char d ≠ 13 := by
  by_cases h : d < 64
  · have h2 : ∀ d : Fin 64, b64Char d.1 ≠ 10 ∧ b64Char d.1 ≠ 13 := by decide +kernel
    exact h2 ⟨d, h⟩
  · simp [b64Char, show ¬ d < 26 by omega, show ¬ d < 52 by omega, show ¬ d < 62 by omega, show d ≠ 62 by omega]

theorem base64_noBreaks {s : List Bool} {b t : Bytes} (h : Base64 s b t) : noBreaks t = t := by
  obtain ⟨ds, p, -, -, -, h4, -, -⟩ := h
  unfold noBreaks
  rw [List.filter_eq_self]
  intro c hc
  rw [h4, List.mem_append, List.mem_map, List.mem_replicate] at hc
  rcases hc with ⟨d, -, rfl⟩ | ⟨-, rfl⟩
  · simp [b64Char_break d]
  · decide

theorem b64Decode_encode (b : Bytes) : b64Decode (b64Encode b) = some b := by
  obtain ⟨n, h⟩ := b64Encode_strict b
  rw [b64Decode_iff, base64_noBreaks h]; exact ⟨_, h⟩

theorem digit_of_bits {a b : Nat} (ha : a < 64) (hb : b < 64) (h : bitsOf 6 a = bitsOf 6 b) : a = b := by
  apply Nat.eq_of_testBit_eq
  intro i
  by_cases hi : 6 ≤ i
  · rw [digit_high ha i hi, digit_high hb i hi]
  · simp only [bitsOf_six, List.cons.injEq] at h
    obtain ⟨h5, h4, h3, h2, h1, h0, -⟩ := h
    match i, hi with
    | 0, _ => exact h0
    | 1, _ => exact h1
    | 2, _ => exact h2
    | 3, _ => exact h3
    | 4, _ => exact h4
    | 5, _ => exact h5
    | n + 6, hi => exact absurd (by omega) hi

theorem sextets_inj : (ds es : List Nat) → (∀ d ∈ ds, d < 64) → (∀ d ∈ es, d < 64) → ds.flatMap (bitsOf 6) = es.flatMap (bitsOf 6) → ds = es
  | [], [], _, _, _ => rfl
  | d :: ds, e :: es, hd, he, h => by
    rw [List.flatMap_cons, List.flatMap_cons] at h
    have h' := List.append_inj h (by rw [bitsOf_length, bitsOf_length])
    rw [digit_of_bits (hd d (by simp)) (he e (by simp)) h'.1,
      sextets_inj ds es (fun x hx => hd x (by simp [hx])) (fun x hx => he x (by simp [hx])) h'.2]
  | [], e :: es, _, _, h => by
    have := congrArg List.length h
    rw [sextets_length, sextets_length] at this; simp at this
  | d :: ds, [], _, _, h => by
    have := congrArg List.length h
    rw [sextets_length, sextets_length] at this; simp at this

theorem strict_unique {b t t' : Bytes} (h : Base64Strict b t) (h' : Base64Strict b t') : t = t' := by
  obtain ⟨n, ds, p, h1, h2, h3, h4, h5, h6⟩ := h
  obtain ⟨m, es, q, g1, g2, g3, g4, g5, g6⟩ := h'
  have l1 := congrArg List.length h2
  have l2 := congrArg List.length g2
  rw [List.length_append, octetBits_length, sextets_length] at l1 l2
  have e : (List.replicate n false).length = (List.replicate m false).length := by omega
  rw [List.length_replicate, List.length_replicate] at e
  subst e
  have := sextets_inj ds es h1 g1 (h2.symm.trans g2)
  subst this
  have : p = q := by omega
  rw [h4, g4, this]

end JV
