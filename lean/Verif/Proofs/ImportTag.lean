import Verif.Spec.GoPlain
import Verif.Proofs.MarshalApi
/-! Struct tags and decimal numerals as Import reads and writes them. -/
namespace JV
open Spec

theorem natDigits_toDigits (n : Nat) : natDigits n = (Nat.toDigits 10 n).map fun c => UInt8.ofNat c.toNat := by
  refine natDigits_ind (P := fun n t => t = (Nat.toDigits 10 n).map fun c => UInt8.ofNat c.toNat) ?_ ?_ n
  · intro n hn
    rw [Nat.toDigits_of_lt_base hn]
    simp [Nat.toNat_digitChar_of_lt_ten hn]
  · intro n t hn ht
    rw [Nat.toDigits_of_base_le (by decide) hn, List.map_append, ht]
    simp [Nat.toNat_digitChar_of_lt_ten (Nat.mod_lt n (by decide : 0 < 10))]

theorem fmtInt_decimal (i : BitVec 64) : fmtInt i = decimal i.toInt := by
  unfold fmtInt decimal
  rw [natDigits_toDigits]
  by_cases h : i.toInt < 0 <;> simp [h]

theorem fmtUint_decimal (u : BitVec 64) : fmtUint u = decimal u.toNat := by
  unfold fmtUint decimal
  rw [natDigits_toDigits]
  simp

theorem goKey_text (k : GoKey) : k.text = Spec.keyText k := by
  cases k with
  | str s => rfl
  | int i => exact fmtInt_decimal i
  | uint u => exact fmtUint_decimal u

theorem splitComma_ne (s : Bytes) : splitComma s ≠ [] := by
  cases s with
  | nil => simp [splitComma]
  | cons c s =>
    unfold splitComma
    by_cases h : c = 0x2C
    · simp [h]
    · rw [if_neg h]; cases splitComma s <;> simp

theorem split_cons {c : UInt8} {s : Bytes} (h : c ≠ 0x2C) {p : Bytes} {ps : List Bytes} (hs : splitComma s = p :: ps) : splitComma (c :: s) = (c :: p) :: ps := by
  rw [splitComma, if_neg h, hs]

theorem split_head (s : Bytes) : (splitComma s).headD [] = tagName s := by
  induction s with
  | nil => rfl
  | cons c s ih =>
    by_cases h : c = 0x2C
    · simp [splitComma, h, tagName]
    · cases hs : splitComma s with
      | nil => exact absurd hs (splitComma_ne s)
      | cons p ps =>
        rw [split_cons h hs]
        rw [hs] at ih
        simp only [List.headD_cons] at ih ⊢
        simp [tagName, h, ih]

/-- the words of a tag -/
theorem split_words (opt : Bytes) (ho : (0x2C : UInt8) ∉ opt) (s : Bytes) :
    (opt = (splitComma s).headD [] ↔ opt ++ [0x2C] <+: s ++ [0x2C]) ∧ (opt ∈ (splitComma s).tail ↔ 0x2C :: (opt ++ [0x2C]) <:+: s ++ [0x2C]) := by
  induction s generalizing opt with
  | nil =>
    constructor
    · constructor
      · rintro rfl; simp [splitComma]
      · intro h
        have := h.length_le
        simp at this; simp [splitComma, this]
    · constructor
      · intro h; simp [splitComma] at h
      · intro h
        have := h.length_le
        simp at this
  | cons c s ih =>
    by_cases h : c = 0x2C
    · subst h
      have hsp : splitComma (0x2C :: s) = [] :: splitComma s := by simp [splitComma]
      rw [hsp]
      constructor
      · constructor
        · rintro rfl; simp
        · intro hp
          cases opt with
          | nil => rfl
          | cons x opt =>
            simp only [List.cons_append, List.cons_prefix_cons] at hp
            exact absurd (by simp [hp.1]) ho
      · simp only [List.tail_cons, List.cons_append]
        rw [List.infix_cons_iff, List.cons_prefix_cons]
        rw [← (ih opt ho).2]
        have := (ih opt ho).1
        cases hs : splitComma s with
        | nil => exact absurd hs (splitComma_ne s)
        | cons p ps =>
          rw [hs] at this
          simp only [List.headD_cons] at this
          simp only [List.mem_cons, List.tail_cons, true_and]
          rw [this]
    · cases hs : splitComma s with
      | nil => exact absurd hs (splitComma_ne s)
      | cons p ps =>
        rw [split_cons h hs]
        constructor
        · simp only [List.headD_cons]
          cases opt with
          | nil =>
            constructor
            · intro h'; cases h'
            · intro hp
              simp only [List.nil_append, List.cons_append, List.cons_prefix_cons] at hp
              exact absurd hp.1.symm h
          | cons x opt =>
            have := (ih opt (fun hm => ho (List.mem_cons_of_mem _ hm))).1
            rw [hs] at this
            simp only [List.headD_cons] at this
            simp only [List.cons_append, List.cons_prefix_cons, List.cons.injEq, this]
        · simp only [List.tail_cons, List.cons_append]
          rw [List.infix_cons_iff, List.cons_prefix_cons, ← (ih opt ho).2, hs]
          simp only [List.tail_cons]
          constructor
          · exact Or.inr
          · rintro (⟨h', -⟩ | h')
            · exact absurd h'.symm h
            · exact h'

theorem split_has (opt : Bytes) (ho : (0x2C : UInt8) ∉ opt) (s : Bytes) : (splitComma s).tail.contains opt = tagHas s opt := by
  unfold tagHas
  rw [Bool.eq_iff_iff, List.contains_iff_mem, decide_eq_true_iff]
  exact (split_words opt ho s).2

theorem tagHas_nil (opt : Bytes) : tagHas [] opt = false := by
  unfold tagHas
  rw [decide_eq_false_iff_not]
  intro h
  have := h.length_le
  simp at this

variable {E : Env} {N : Bytes → Bool}

theorem readFieldTag_ok {name tag : Bytes} (h : TagOK E N name tag) (pex : Ext) :
    readFieldTag E name tag pex = (if tagName tag = [] then name else tagName tag,
      { omitempty := tagHas tag omitemptyWord, toString := tagHas tag stringWord, ignoreOmitempty := pex.ignoreOmitempty }) := by
  unfold readFieldTag
  by_cases ht : tag = []
  · subst ht; simp [tagHas_nil, tagName]
  · simp only [ht, if_false, split_head, h.2.2.2.1]
    rw [split_has optOmitempty (by decide), split_has optString (by decide)]
    rfl

theorem readFieldTag_dash (hE : E.trimSpace [0x2D] = [0x2D]) (name : Bytes) (pex : Ext) : (readFieldTag E name [0x2D] pex).1 = [0x2D] := by
  simp [readFieldTag, splitComma, hE]

theorem tagOK_name {name tag : Bytes} (h : TagOK E N name tag) : (if tagName tag = [] then name else tagName tag) ≠ [0x2D] := by
  by_cases ht : tagName tag = []
  · rw [if_pos ht]; exact h.2.1
  · rw [if_neg ht]; exact h.1

theorem tagOK_std {name tag : Bytes} (h : TagOK E N name tag) :
    (if tagName tag ≠ [] && N (tagName tag) then tagName tag else []) = tagName tag := by
  rcases h.2.2.2.2 with h | h
  · simp [h]
  · by_cases ht : tagName tag = [] <;> simp [h, ht]

theorem tagOK_ne_dash {name tag : Bytes} (h : TagOK E N name tag) : tag ≠ [0x2D] := by
  rintro rfl
  exact h.1 rfl

theorem upper_iff (name : Bytes) : (match name with
    | c :: _ => decide (0x41 ≤ c.toNat ∧ c.toNat ≤ 0x5A)
    | [] => false) = upper name := by
  cases name with
  | nil => rfl
  | cons c s =>
    simp only [upper]
    rw [Bool.eq_iff_iff]
    simp [UInt8.le_iff_toNat_le]

theorem readAnonymousFieldTag_ok {name tag : Bytes} (h : TagOK E N name tag) (pex : Ext) :
    readAnonymousFieldTag E name tag pex = (if tagName tag = [] then name else tagName tag,
      { omitempty := tagHas tag omitemptyWord, toString := tagHas tag stringWord, isPrivate := !upper name, ignoreOmitempty := pex.ignoreOmitempty }) := by
  unfold readAnonymousFieldTag
  rw [readFieldTag_ok h, ← upper_iff]
  rfl

end JV
