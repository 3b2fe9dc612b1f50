import Verif.Proofs.LexStr
import Verif.Spec.Marshal
/-! Escaping of strings: what is printed is a string literal denoting the cleaned string. -/
namespace JV
open Spec

theorem u8ext {a b : UInt8} (h : a.toNat = b.toNat) : a = b := UInt8.toNat.inj h

theorem toNat_ofNat {n : Nat} (h : n < 256) : (UInt8.ofNat n).toNat = n := by
  simp; omega

theorem utf8_ne_nil (r : Nat) : utf8 r ≠ [] := by unfold utf8; (repeat' split) <;> simp
theorem utf8_length_pos (r : Nat) : 0 < (utf8 r).length := List.length_pos_iff.2 (utf8_ne_nil r)

theorem encodeRune_scalar {r : Nat} (h : Scalar r) : encodeRune r = utf8 r := by
  unfold Scalar at h
  unfold encodeRune utf8
  (repeat' split) <;> first | rfl | omega

/-- decoding a UTF-8 sequence gives its code point -/
theorem decodeRune_utf8 {r : Nat} (h : Scalar r) (t : Bytes) : decodeRune (utf8 r ++ t) = (r, (utf8 r).length) := by
  unfold Scalar at h
  unfold utf8
  by_cases h1 : r < 0x80
  · rw [if_pos h1]
    simp only [List.cons_append, List.nil_append, decodeRune, UInt8.lt_iff_toNat_lt]
    rw [toNat_ofNat (by omega)]
    rw [if_pos (by exact h1)]; rfl
  rw [if_neg h1]
  by_cases h2 : r < 0x800
  · rw [if_pos h2]
    have e1 := toNat_ofNat (n := 0xC0 + r / 64) (by omega)
    have e2 := toNat_ofNat (n := 0x80 + r % 64) (by omega)
    simp only [List.cons_append, List.nil_append, decodeRune, UInt8.lt_iff_toNat_lt, UInt8.le_iff_toNat_le, isCont, Bool.and_eq_true, decide_eq_true_eq, e1, e2]
    simp only [show UInt8.toNat 0x80 = 0x80 from rfl, show UInt8.toNat 0xC2 = 0xC2 from rfl, show UInt8.toNat 0xDF = 0xDF from rfl, show UInt8.toNat 0xBF = 0xBF from rfl]
    rw [if_neg (by omega), if_pos (by omega), if_pos (by omega)]
    simp only [List.length_cons, List.length_nil, Prod.mk.injEq, and_true]
    omega
  rw [if_neg h2]
  by_cases h3 : r < 0x10000
  · rw [if_pos h3]
    have e1 := toNat_ofNat (n := 0xE0 + r / 4096) (by omega)
    have e2 := toNat_ofNat (n := 0x80 + r / 64 % 64) (by omega)
    have e3 := toNat_ofNat (n := 0x80 + r % 64) (by omega)
    have hs : secondOK (UInt8.ofNat (0xE0 + r / 4096)) (UInt8.ofNat (0x80 + r / 64 % 64)) = true := by
      unfold secondOK isCont
      simp only [← UInt8.toNat_inj, e1, UInt8.le_iff_toNat_le, e2, Bool.and_eq_true, decide_eq_true_eq]
      simp only [show UInt8.toNat 0x80 = 0x80 from rfl, show UInt8.toNat 0xE0 = 0xE0 from rfl, show UInt8.toNat 0xED = 0xED from rfl, show UInt8.toNat 0xBF = 0xBF from rfl,
        show UInt8.toNat 0xA0 = 0xA0 from rfl, show UInt8.toNat 0x9F = 0x9F from rfl, show UInt8.toNat 0xF0 = 0xF0 from rfl, show UInt8.toNat 0xF4 = 0xF4 from rfl,
        show UInt8.toNat 0x90 = 0x90 from rfl, show UInt8.toNat 0x8F = 0x8F from rfl]
      repeat' split
      all_goals simp only [Bool.and_eq_true, decide_eq_true_eq]; omega
    have hc : isCont (UInt8.ofNat (0x80 + r % 64)) = true := by
      unfold isCont
      simp only [UInt8.le_iff_toNat_le, e3, Bool.and_eq_true, decide_eq_true_eq, show UInt8.toNat 0x80 = 0x80 from rfl, show UInt8.toNat 0xBF = 0xBF from rfl]
      omega
    simp only [List.cons_append, List.nil_append, decodeRune, UInt8.lt_iff_toNat_lt, UInt8.le_iff_toNat_le, hs, hc, e1, e2, e3, Bool.and_self, if_true,
      show UInt8.toNat 0x80 = 0x80 from rfl, show UInt8.toNat 0xC2 = 0xC2 from rfl, show UInt8.toNat 0xDF = 0xDF from rfl, show UInt8.toNat 0xE0 = 0xE0 from rfl,
      show UInt8.toNat 0xEF = 0xEF from rfl]
    rw [if_neg (by omega), if_neg (by omega), if_pos (by omega)]
    simp only [List.length_cons, List.length_nil, Prod.mk.injEq, and_true]
    omega
  · rw [if_neg h3]
    have e1 := toNat_ofNat (n := 0xF0 + r / 262144) (by omega)
    have e2 := toNat_ofNat (n := 0x80 + r / 4096 % 64) (by omega)
    have e3 := toNat_ofNat (n := 0x80 + r / 64 % 64) (by omega)
    have e4 := toNat_ofNat (n := 0x80 + r % 64) (by omega)
    have hs : secondOK (UInt8.ofNat (0xF0 + r / 262144)) (UInt8.ofNat (0x80 + r / 4096 % 64)) = true := by
      unfold secondOK isCont
      simp only [← UInt8.toNat_inj, e1, UInt8.le_iff_toNat_le, e2, Bool.and_eq_true, decide_eq_true_eq]
      simp only [show UInt8.toNat 0x80 = 0x80 from rfl, show UInt8.toNat 0xE0 = 0xE0 from rfl, show UInt8.toNat 0xED = 0xED from rfl, show UInt8.toNat 0xBF = 0xBF from rfl,
        show UInt8.toNat 0xA0 = 0xA0 from rfl, show UInt8.toNat 0x9F = 0x9F from rfl, show UInt8.toNat 0xF0 = 0xF0 from rfl, show UInt8.toNat 0xF4 = 0xF4 from rfl,
        show UInt8.toNat 0x90 = 0x90 from rfl, show UInt8.toNat 0x8F = 0x8F from rfl]
      repeat' split
      all_goals simp only [Bool.and_eq_true, decide_eq_true_eq]; omega
    have hc : ∀ n, n < 64 → isCont (UInt8.ofNat (0x80 + n)) = true := by
      intro n hn
      unfold isCont
      simp only [UInt8.le_iff_toNat_le, toNat_ofNat (n := 0x80 + n) (by omega), Bool.and_eq_true, decide_eq_true_eq, show UInt8.toNat 0x80 = 0x80 from rfl, show UInt8.toNat 0xBF = 0xBF from rfl]
      omega
    simp only [List.cons_append, List.nil_append, decodeRune, UInt8.lt_iff_toNat_lt, UInt8.le_iff_toNat_le, hs, hc (r / 64 % 64) (by omega), hc (r % 64) (by omega), e1, e2, e3, e4, Bool.and_self, if_true,
      show UInt8.toNat 0x80 = 0x80 from rfl, show UInt8.toNat 0xC2 = 0xC2 from rfl, show UInt8.toNat 0xDF = 0xDF from rfl, show UInt8.toNat 0xE0 = 0xE0 from rfl,
      show UInt8.toNat 0xEF = 0xEF from rfl, show UInt8.toNat 0xF0 = 0xF0 from rfl, show UInt8.toNat 0xF4 = 0xF4 from rfl]
    rw [if_neg (by omega), if_neg (by omega), if_neg (by omega), if_pos (by omega)]
    simp only [List.length_cons, List.length_nil, Prod.mk.injEq, and_true]
    omega

theorem isCont_iff (c : UInt8) : isCont c = true ↔ 0x80 ≤ c.toNat ∧ c.toNat ≤ 0xBF := by
  unfold isCont
  simp only [UInt8.le_iff_toNat_le, Bool.and_eq_true, decide_eq_true_eq, show UInt8.toNat 0x80 = 0x80 from rfl, show UInt8.toNat 0xBF = 0xBF from rfl]

/-- what a decoded sequence looks like: either a valid sequence or the replacement for one byte -/
theorem decodeRune_cases (c : UInt8) (t : Bytes) :
    (∃ r u, Scalar r ∧ c :: t = utf8 r ++ u ∧ decodeRune (c :: t) = (r, (utf8 r).length)) ∨
    (decodeRune (c :: t) = (0xFFFD, 1)) := by
  have key : ∀ r u, Scalar r → c :: t = utf8 r ++ u → 
      (∃ r u, Scalar r ∧ c :: t = utf8 r ++ u ∧ decodeRune (c :: t) = (r, (utf8 r).length)) ∨ (decodeRune (c :: t) = (0xFFFD, 1)) :=
    fun r u hr h => .inl ⟨r, u, hr, h, by rw [h, decodeRune_utf8 hr]⟩
  have n80 : UInt8.toNat 0x80 = 0x80 := rfl
  have nc2 : UInt8.toNat 0xC2 = 0xC2 := rfl
  have ndf : UInt8.toNat 0xDF = 0xDF := rfl
  have ne0 : UInt8.toNat 0xE0 = 0xE0 := rfl
  have nef : UInt8.toNat 0xEF = 0xEF := rfl
  have nf0 : UInt8.toNat 0xF0 = 0xF0 := rfl
  have nf4 : UInt8.toNat 0xF4 = 0xF4 := rfl
  by_cases h1 : c < 0x80
  · refine key c.toNat t ?_ ?_
    · rw [UInt8.lt_iff_toNat_lt, n80] at h1; exact .inl (by omega)
    · rw [UInt8.lt_iff_toNat_lt, n80] at h1
      unfold utf8; rw [if_pos h1]; simp
  by_cases h2 : 0xC2 ≤ c ∧ c ≤ 0xDF
  · cases t with
    | nil => right; simp only [decodeRune, if_neg h1, if_pos h2]
    | cons d t =>
      by_cases hd : isCont d = true
      · simp only [UInt8.le_iff_toNat_le, nc2, ndf] at h2
        have hd' := (isCont_iff d).1 hd
        refine key ((c.toNat - 0xC0) * 64 + (d.toNat - 0x80)) t (.inl (by omega)) ?_
        unfold utf8; rw [if_neg (by omega), if_pos (by omega)]
        simp only [List.cons_append, List.nil_append, List.cons.injEq, and_true]
        exact ⟨u8ext (by rw [toNat_ofNat (by omega)]; omega), u8ext (by rw [toNat_ofNat (by omega)]; omega)⟩
      · right; simp only [decodeRune, if_neg h1, if_pos h2]; rw [if_neg hd]
  by_cases h3 : 0xE0 ≤ c ∧ c ≤ 0xEF
  · match t with
    | [] => right; simp only [decodeRune, if_neg h1, if_neg h2, if_pos h3]
    | [_] => right; simp only [decodeRune, if_neg h1, if_neg h2, if_pos h3]
    | d :: e :: t =>
      by_cases hd : (secondOK c d && isCont e) = true
      · simp only [Bool.and_eq_true] at hd
        obtain ⟨hd, he⟩ := hd
        have he' := (isCont_iff e).1 he
        simp only [UInt8.le_iff_toNat_le, ne0, nef] at h3
        have hd' : (c.toNat = 0xE0 → 0xA0 ≤ d.toNat) ∧ (c.toNat = 0xED → d.toNat ≤ 0x9F) ∧ 0x80 ≤ d.toNat ∧ d.toNat ≤ 0xBF := by
          unfold secondOK isCont at hd
          simp only [← UInt8.toNat_inj, ne0, nf0, nf4, show UInt8.toNat 0xED = 0xED from rfl] at hd
          repeat' split at hd
          all_goals simp only [UInt8.le_iff_toNat_le, Bool.and_eq_true, decide_eq_true_eq, show UInt8.toNat 0x80 = 0x80 from rfl, show UInt8.toNat 0xBF = 0xBF from rfl,
            show UInt8.toNat 0xA0 = 0xA0 from rfl, show UInt8.toNat 0x9F = 0x9F from rfl, show UInt8.toNat 0x90 = 0x90 from rfl, show UInt8.toNat 0x8F = 0x8F from rfl] at hd
          all_goals omega
        refine key ((c.toNat - 0xE0) * 4096 + (d.toNat - 0x80) * 64 + (e.toNat - 0x80)) t ?_ ?_
        · unfold Scalar; omega
        unfold utf8; rw [if_neg (by omega), if_neg (by omega), if_pos (by omega)]
        simp only [List.cons_append, List.nil_append, List.cons.injEq, and_true]
        exact ⟨u8ext (by rw [toNat_ofNat (by omega)]; omega), u8ext (by rw [toNat_ofNat (by omega)]; omega), u8ext (by rw [toNat_ofNat (by omega)]; omega)⟩
      · right; simp only [decodeRune, if_neg h1, if_neg h2, if_pos h3]; rw [if_neg hd]
  by_cases h4 : 0xF0 ≤ c ∧ c ≤ 0xF4
  · match t with
    | [] => right; simp only [decodeRune, if_neg h1, if_neg h2, if_neg h3, if_pos h4]
    | [_] => right; simp only [decodeRune, if_neg h1, if_neg h2, if_neg h3, if_pos h4]
    | [_, _] => right; simp only [decodeRune, if_neg h1, if_neg h2, if_neg h3, if_pos h4]
    | d :: e :: f :: t =>
      by_cases hd : (secondOK c d && isCont e && isCont f) = true
      · simp only [Bool.and_eq_true] at hd
        obtain ⟨⟨hd, he⟩, hf⟩ := hd
        have he' := (isCont_iff e).1 he
        have hf' := (isCont_iff f).1 hf
        simp only [UInt8.le_iff_toNat_le, nf0, nf4] at h4
        have hd' : (c.toNat = 0xF0 → 0x90 ≤ d.toNat) ∧ (c.toNat = 0xF4 → d.toNat ≤ 0x8F) ∧ 0x80 ≤ d.toNat ∧ d.toNat ≤ 0xBF := by
          unfold secondOK isCont at hd
          simp only [← UInt8.toNat_inj, ne0, nf0, nf4, show UInt8.toNat 0xED = 0xED from rfl] at hd
          repeat' split at hd
          all_goals simp only [UInt8.le_iff_toNat_le, Bool.and_eq_true, decide_eq_true_eq, show UInt8.toNat 0x80 = 0x80 from rfl, show UInt8.toNat 0xBF = 0xBF from rfl,
            show UInt8.toNat 0xA0 = 0xA0 from rfl, show UInt8.toNat 0x9F = 0x9F from rfl, show UInt8.toNat 0x90 = 0x90 from rfl, show UInt8.toNat 0x8F = 0x8F from rfl] at hd
          all_goals omega
        refine key ((c.toNat - 0xF0) * 262144 + (d.toNat - 0x80) * 4096 + (e.toNat - 0x80) * 64 + (f.toNat - 0x80)) t ?_ ?_
        · unfold Scalar; omega
        unfold utf8; rw [if_neg (by omega), if_neg (by omega), if_neg (by omega)]
        simp only [List.cons_append, List.nil_append, List.cons.injEq, and_true]
        exact ⟨u8ext (by rw [toNat_ofNat (by omega)]; omega), u8ext (by rw [toNat_ofNat (by omega)]; omega), u8ext (by rw [toNat_ofNat (by omega)]; omega), u8ext (by rw [toNat_ofNat (by omega)]; omega)⟩
      · right; simp only [decodeRune, if_neg h1, if_neg h2, if_neg h3, if_pos h4]; rw [if_neg hd]
  · right; simp only [decodeRune, if_neg h1, if_neg h2, if_neg h3, if_neg h4]

theorem Decodes_runesF : ∀ (f : Nat) (s : Bytes), s.length ≤ f → Decodes s (runesF f s)
  | 0, [], _ => .nil
  | f + 1, [], _ => .nil
  | f + 1, c :: t, h => by
    by_cases hv : ∃ r u, Scalar r ∧ c :: t = utf8 r ++ u
    · obtain ⟨r, u, hr, he⟩ := hv
      have hd : decodeRune (c :: t) = (r, (utf8 r).length) := by rw [he, decodeRune_utf8 hr]
      simp only [runesF, hd]
      rw [he, List.drop_left]
      refine .char r u _ hr (Decodes_runesF f u ?_)
      have : (c :: t).length = (utf8 r).length + u.length := by rw [he, List.length_append]
      have := utf8_length_pos r
      omega
    · rcases decodeRune_cases c t with ⟨r, u, hr, he, -⟩ | hd
      · exact absurd ⟨r, u, hr, he⟩ hv
      · simp only [runesF, hd, List.drop_succ_cons, List.drop_zero]
        exact .bad c t _ (fun r u hr he => hv ⟨r, u, hr, he⟩) (Decodes_runesF f t (by simpa using h))

theorem Decodes_runes (s : Bytes) : Decodes s (runes s) := Decodes_runesF _ s (Nat.le_refl _)

theorem utf8_prefix_inj {r r' : Nat} {u u' : Bytes} (h : Scalar r) (h' : Scalar r') (he : utf8 r ++ u = utf8 r' ++ u') : r = r' ∧ u = u' := by
  have h1 := decodeRune_utf8 h u
  have h2 := decodeRune_utf8 h' u'
  rw [he, h2] at h1
  simp only [Prod.mk.injEq] at h1
  obtain ⟨rfl, -⟩ := h1
  exact ⟨rfl, List.append_cancel_left he⟩

/-- the code points are determined by the bytes -/
theorem _root_.Spec.Decodes.unique {s : Bytes} {rs : List Nat} (h : Decodes s rs) : ∀ rs', Decodes s rs' → rs' = rs := by
  induction h with
  | nil =>
    intro rs' h'
    generalize hs : ([] : Bytes) = s at h'
    cases h' with
    | nil => rfl
    | char r t _ _ _ => exact absurd hs.symm (by simp [utf8_ne_nil])
    | bad => cases hs
  | char r t rs hr ht ih =>
    intro rs' h'
    generalize hs : utf8 r ++ t = s at h'
    cases h' with
    | nil => simp [utf8_ne_nil] at hs
    | char r' t' rs' hr' ht' =>
      obtain ⟨rfl, rfl⟩ := utf8_prefix_inj hr hr' hs
      rw [ih _ ht']
    | bad b t' rs' hb _ => exact absurd hs.symm (hb r t hr)
  | bad b t rs hb ht ih =>
    intro rs' h'
    generalize hs : b :: t = s at h'
    cases h' with
    | nil => cases hs
    | char r' t' rs' hr' ht' => exact absurd hs (hb r' t' hr')
    | bad b' t' rs' hb' ht' => cases hs; rw [ih _ ht']

theorem runes_of_decodes {s : Bytes} {rs : List Nat} (h : Decodes s rs) : runes s = rs := h.unique _ (Decodes_runes s)

theorem _root_.Spec.Decodes.scalar {s : Bytes} {rs : List Nat} (h : Decodes s rs) : ∀ r ∈ rs, Scalar r := by
  induction h with
  | nil => simp
  | char r t rs hr ht ih => intro x hx; rcases List.mem_cons.1 hx with rfl | hx; exact hr; exact ih x hx
  | bad b t rs hb ht ih => intro x hx; rcases List.mem_cons.1 hx with rfl | hx; exact .inr (by decide); exact ih x hx

theorem valid_decodes : ∀ (rs : List Nat), (∀ r ∈ rs, Scalar r) → Decodes (rs.flatMap utf8) rs
  | [], _ => .nil
  | r :: rs, h => .char r _ rs (h r (by simp)) (valid_decodes rs fun x hx => h x (by simp [hx]))

theorem cleaned_valid {s d : Bytes} (hv : ValidUTF8 s) (h : Cleaned s d) : d = s := by
  obtain ⟨rs, h1, rfl⟩ := hv
  obtain ⟨rs', h2, rfl⟩ := h
  rw [(valid_decodes rs h1).unique _ h2]

theorem cleaned_unique {s d d' : Bytes} (h : Cleaned s d) (h' : Cleaned s d') : d' = d := by
  obtain ⟨rs, h1, rfl⟩ := h
  obtain ⟨rs', h2, rfl⟩ := h'
  rw [h1.unique _ h2]

theorem cleaned_runes (s : Bytes) : Cleaned s ((runes s).flatMap utf8) := ⟨_, Decodes_runes s, rfl⟩

/-! ### escapes -/

theorem hexUpper_hex : ∀ n, n < 16 → Hex (hexUpper n) n := by
  intro n hn
  unfold hexUpper Hex
  by_cases h : n < 10
  · rw [if_pos h, toNat_ofNat (by omega)]; omega
  · rw [if_neg h, toNat_ofNat (by omega)]; omega

theorem fmtU4_UEsc {r : Nat} (h : r < 0x10000) : UEsc (fmtU4 r) r :=
  ⟨_, _, _, _, r / 4096 % 16, r / 256 % 16, r / 16 % 16, r % 16, rfl, hexUpper_hex _ (by omega), hexUpper_hex _ (by omega),
    hexUpper_hex _ (by omega), hexUpper_hex _ (by omega), by omega⟩

theorem escUTF16_body {r : Nat} (h : Scalar r) {t d : Bytes} (ht : StrBody t d) : StrBody (escUTF16 r ++ t) (utf8 r ++ d) := by
  unfold escUTF16
  by_cases h1 : r ≤ 0xFFFF
  · rw [if_pos h1]
    exact .uni _ r t d (fmtU4_UEsc (by omega)) h ht
  · rw [if_neg h1]
    have hr : r < 0x110000 := by unfold Scalar at h; omega
    have e1 : ((r - 0x10000) &&& 0xFFC00) >>> 10 = (r - 0x10000) / 1024 % 1024 := mask_shift _ _ 10 10 rfl
    have e2 : (r - 0x10000) &&& 0x003FF = (r - 0x10000) % 1024 := Nat.and_two_pow_sub_one_eq_mod _ 10
    simp only [e1, e2]
    have hp := StrBody.pair _ _ _ _ t d (fmtU4_UEsc (r := (r - 0x10000) / 1024 % 1024 + 0xD800) (by omega))
      (fmtU4_UEsc (r := (r - 0x10000) % 1024 + 0xDC00) (by omega)) (by omega) (by omega) (by omega) (by omega) ht
    have hx : 0x10000 + ((r - 0x10000) / 1024 % 1024 + 0xD800 - 0xD800) * 1024 + ((r - 0x10000) % 1024 + 0xDC00 - 0xDC00) = r := by omega
    rw [hx] at hp
    exact hp

/-- what the table of ASCII escapes may contain for byte `n` -/
def EscOK (n : Nat) (f : EscFn) : Prop :=
  (f = .nothing ∧ (0x20 ≤ n ∨ n = 0xB) ∧ n ≠ 0x22 ∧ n ≠ 0x5C) ∨ f = .control ∨ (f = .doubleQuote ∧ n = 0x22) ∨ (f = .slash ∧ n = 0x2F) ∨ (f = .backslash ∧ n = 0x5C) ∨
  (f = .backspace ∧ n = 8) ∨ (f = .vertTab ∧ n = 0xC) ∨ (f = .tab ∧ n = 9) ∨ (f = .newLine ∧ n = 0xA) ∨ (f = .ret ∧ n = 0xD) ∨
  (f = .leftAngle ∧ n = 0x3C) ∨ (f = .rightAngle ∧ n = 0x3E) ∨ (f = .and ∧ n = 0x26)

instance (n f) : Decidable (EscOK n f) := by unfold EscOK; infer_instance

/-- the table depends on two bits of the mask only -/
theorem parseEscaping_ascii (e : BitVec 8) (n : Nat) : (parseEscapingFuncs e).ascii n =
    if escHas e escapeWithoutHTML ∧ (n = 0x26 ∨ n = 0x3E ∨ n = 0x3C) then .nothing
    else if escHas e escapeIgnoreSlash ∧ n = 0x2F then .nothing else baseTable n := by
  unfold parseEscapingFuncs
  by_cases h1 : escHas e escapeWithoutHTML = true <;> by_cases h2 : escHas e escapeIgnoreSlash = true <;>
    simp only [h1, h2, if_true, if_false, true_and, false_and, Bool.false_eq_true, tblSet] <;>
    (repeat' split) <;> first | rfl | omega

theorem baseTable_ok : ∀ n, n < 128 → EscOK n (baseTable n) := by decide +kernel

theorem parseEscaping_ok (e : BitVec 8) (n : Nat) (h : n < 128) : EscOK n ((parseEscapingFuncs e).ascii n) := by
  rw [parseEscaping_ascii]
  split
  · exact .inl ⟨rfl, .inl (by omega), by omega, by omega⟩
  split
  · exact .inl ⟨rfl, .inl (by omega), by omega, by omega⟩
  · exact baseTable_ok n h

theorem utf8_ascii {n : Nat} (h : n < 128) : utf8 n = [UInt8.ofNat n] := by unfold utf8; rw [if_pos (by omega)]

theorem _root_.Spec.LStr.append {a da b db : Bytes} (h : LStr a da) (hb : LStr b db) : LStr (a ++ b) (da ++ db) := by
  induction h with
  | nil => exact hb
  | ascii c t d h1 h2 h3 _ ih => exact .ascii c _ _ h1 h2 h3 ih
  | multi c m t d h1 h2 _ ih => simp only [List.append_assoc, List.cons_append] at ih ⊢; exact .multi c m _ _ h1 h2 ih
  | esc c b t d h1 _ ih => exact .esc c b _ _ h1 ih
  | uni e r t d h1 h2 _ ih => simp only [List.append_assoc]; exact .uni e r _ _ h1 h2 ih
  | pair e1 e2 hi lo t d h1 h2 h3 h4 h5 h6 _ ih =>
    rw [List.append_assoc (e1 ++ e2), List.append_assoc (utf8four _)]; exact .pair e1 e2 hi lo _ _ h1 h2 h3 h4 h5 h6 ih

theorem escFn_body {n : Nat} (hn : n < 128) {f : EscFn} (hf : EscOK n f) (hv : n ≠ 0xB) {t d : Bytes} (ht : StrBody t d) :
    StrBody (f.run (UInt8.ofNat n) ++ t) (utf8 n ++ d) := by
  have esc : ∀ c, EscChar c (UInt8.ofNat n) → StrBody ([0x5C, c] ++ t) (utf8 n ++ d) := by
    intro c hc; rw [utf8_ascii hn]; exact .esc c _ t d hc ht
  have hz : Hex 0x30 0 := .inl ⟨by decide, by decide, by decide⟩
  have uni : ∀ a b, a < 16 → b < 16 → n = a * 16 + b → StrBody ([0x5C, 0x75, 0x30, 0x30, hexUpper a, hexUpper b] ++ t) (utf8 n ++ d) := by
    intro a b ha hb hab
    have hU : UEsc [0x5C, 0x75, 0x30, 0x30, hexUpper a, hexUpper b] n :=
      ⟨0x30, 0x30, hexUpper a, hexUpper b, 0, 0, a, b, rfl, hz, hz, hexUpper_hex a ha, hexUpper_hex b hb, by rw [hab, Nat.zero_mul, Nat.zero_add]⟩
    exact .uni _ n t d hU (.inl (by omega)) ht
  rcases hf with ⟨rfl, h1, h2, h3⟩ | rfl | ⟨rfl, rfl⟩ | ⟨rfl, rfl⟩ | ⟨rfl, rfl⟩ | ⟨rfl, rfl⟩ | ⟨rfl, rfl⟩ | ⟨rfl, rfl⟩ | ⟨rfl, rfl⟩ | ⟨rfl, rfl⟩ | ⟨rfl, rfl⟩ | ⟨rfl, rfl⟩ | ⟨rfl, rfl⟩
  · have := StrBody.char n t d (.inl (by omega)) (by omega) h2 h3 ht
    rw [utf8_ascii hn] at this ⊢
    exact this
  · simp only [EscFn.run, toNat_ofNat (n := n) (by omega)]
    exact uni _ _ (by omega) (by omega) (by omega)
  all_goals first
    | exact esc _ (by unfold EscChar; decide)
    | exact uni 3 12 (by decide) (by decide) (by decide)
    | exact uni 3 14 (by decide) (by decide) (by decide)
    | exact uni 2 6 (by decide) (by decide) (by decide)

theorem escRune_body {T : Escaper} (hT : ∀ n, n < 128 → EscOK n (T.ascii n)) {r : Nat} (h : Scalar r) (hv : r ≠ 0xB) {t d : Bytes} (ht : StrBody t d) :
    StrBody (escRune T r ++ t) (utf8 r ++ d) := by
  unfold escRune
  by_cases h1 : r ≤ 0x7F
  · rw [if_pos h1]; exact escFn_body (by omega) (hT r (by omega)) hv ht
  rw [if_neg h1]
  split
  · unfold escUTF8
    split
    · exact escUTF16_body h ht
    · rw [encodeRune_scalar h]; exact .char r t d h (by omega) (by omega) (by omega) ht
  · exact escUTF16_body h ht

theorem escRunes_body {T : Escaper} (hT : ∀ n, n < 128 → EscOK n (T.ascii n)) : ∀ (rs : List Nat), (∀ r ∈ rs, Scalar r) → 0xB ∉ rs →
    StrBody (rs.flatMap (escRune T)) (rs.flatMap utf8)
  | [], _, _ => .nil
  | r :: rs, h, hv => escRune_body hT (h r (by simp)) (fun he => hv (by simp [he])) (escRunes_body hT rs (fun x hx => h x (by simp [hx])) fun hx => hv (by simp [hx]))

/-- what is written between the quotes for a string -/
def escText (T : Escaper) (s : Bytes) : Bytes := (runes s).flatMap (escRune T)

theorem escText_body {T : Escaper} (hT : ∀ n, n < 128 → EscOK n (T.ascii n)) (s : Bytes) (hv : 0xB ∉ runes s) : StrBody (escText T s) ((runes s).flatMap utf8) :=
  escRunes_body hT _ (Decodes_runes s).scalar hv

/-! what the parser reads back, vertical tabs included -/

theorem runes_body_lenient {T : Escaper} (hT : ∀ n, n < 128 → EscOK n (T.ascii n)) : ∀ (rs : List Nat), (∀ r ∈ rs, Scalar r) →
    LStr (rs.flatMap (escRune T)) (rs.flatMap utf8)
  | [], _ => .nil
  | r :: rs, h => by
    have ih := runes_body_lenient hT rs fun x hx => h x (by simp [hx])
    simp only [List.flatMap_cons]
    by_cases hv : r = 0xB
    · subst hv
      have h2 := hT 0xB (by decide)
      have : T.ascii 0xB = .nothing ∨ T.ascii 0xB = .control := by
        rcases h2 with h2 | h2 | h2 | h2 | h2 | h2 | h2 | h2 | h2 | h2 | h2 | h2 | h2
        · exact .inl h2.1
        · exact .inr h2
        all_goals exact absurd h2.2 (by decide)
      rcases this with h3 | h3
      · simp only [escRune, h3, EscFn.run]
        exact .ascii 0xB _ _ (by decide) (by decide) (by decide) ih
      · simp only [escRune, h3, EscFn.run]
        exact .uni _ 0xB _ _ ⟨0x30, 0x30, 0x30, 0x42, 0, 0, 0, 11, rfl, .inl (by decide), .inl (by decide), .inl (by decide), .inr (.inl (by decide)), by decide⟩ (.inl (by decide)) ih
    · have := (escRune_body hT (h r (by simp)) hv .nil).lenient
      simp only [List.append_nil] at this
      exact this.append ih

theorem escText_lenient {T : Escaper} (hT : ∀ n, n < 128 → EscOK n (T.ascii n)) (s : Bytes) : LStr (escText T s) ((runes s).flatMap utf8) :=
  runes_body_lenient hT _ (Decodes_runes s).scalar

end JV
