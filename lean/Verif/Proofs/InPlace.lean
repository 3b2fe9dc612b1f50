import Verif.Proofs.Total
import Verif.Spec.InPlace
/-! The buffer differs from the input only inside string literals. -/
namespace JV
open Spec

theorem strMask_skip (m s : Bytes) : strMask (m ++ s) true m.length = List.replicate m.length true ++ strMask s true 0 := by
  induction m with
  | nil => rfl
  | cons c m ih => simp [strMask, ih, List.replicate_succ]

theorem hex_plain : ∀ (c : UInt8) (n : Nat), Hex c n → c ≠ 0x22 ∧ c ≠ 0x5C ∧ leadLen c = 0 := by
  have key : ∀ n : Fin 256, let c := UInt8.ofNat n.1; c.toNat < 0x80 → 0x30 ≤ c.toNat → c.toNat ≠ 0x5C → c ≠ 0x22 ∧ c ≠ 0x5C ∧ leadLen c = 0 := by decide +kernel
  intro c n h
  have := key ⟨c.toNat, c.toNat_lt⟩
  simp only [UInt8.ofNat_toNat] at this
  unfold Hex at h
  exact this (by omega) (by omega) (by omega)

theorem ascii_plain : ∀ (c : UInt8), c.toNat < 0x80 → leadLen c = 0 := by
  have key : ∀ n : Fin 256, let c := UInt8.ofNat n.1; c.toNat < 0x80 → leadLen c = 0 := by decide +kernel
  intro c h
  have := key ⟨c.toNat, c.toNat_lt⟩
  simp only [UInt8.ofNat_toNat] at this
  exact this h

theorem strMask_plain {c : UInt8} (s : Bytes) (h1 : c ≠ 0x22) (h2 : c ≠ 0x5C) (h3 : leadLen c = 0) :
    strMask (c :: s) true 0 = true :: strMask s true 0 := by
  simp [strMask, h1, h2, h3]

theorem strMask_uesc {e : Bytes} {r : Nat} (h : UEsc e r) (s : Bytes) :
    strMask (e ++ s) true 0 = List.replicate e.length true ++ strMask s true 0 := by
  obtain ⟨a, b, c, d, x3, x2, x1, x0, rfl, ha, hb, hc, hd, -⟩ := h
  have ha := hex_plain _ _ ha
  have hb := hex_plain _ _ hb
  have hc := hex_plain _ _ hc
  have hd := hex_plain _ _ hd
  have e1 : ∀ t, strMask (0x5C :: 0x75 :: t) true 0 = true :: true :: strMask t true 0 := by intro t; simp [strMask]
  simp only [List.cons_append, List.nil_append, e1, strMask_plain _ ha.1 ha.2.1 ha.2.2, strMask_plain _ hb.1 hb.2.1 hb.2.2, strMask_plain _ hc.1 hc.2.1 hc.2.2,
    strMask_plain _ hd.1 hd.2.1 hd.2.2]
  rfl

theorem strMask_body {body d : Bytes} (h : LStr body d) (s : Bytes) :
    strMask (body ++ 0x22 :: s) true 0 = List.replicate body.length true ++ false :: strMask s false 0 := by
  induction h with
  | nil => simp [strMask]
  | ascii c t d h1 h2 h3 _ ih =>
    rw [List.cons_append, strMask_plain _ h2 h3 (ascii_plain c h1), ih]; rfl
  | multi c m t d h1 h2 _ ih =>
    have hf := (lead_facts c).2.2.2.1 (by omega)
    have : strMask (c :: m ++ t ++ 0x22 :: s) true 0 = true :: strMask (m ++ (t ++ 0x22 :: s)) true (leadLen c - 1) := by
      simp [strMask, hf.2.1, hf.2.2]
    rw [this, h1, show m.length + 1 - 1 = m.length by omega, strMask_skip, ih]
    simp [← List.replicate_append_replicate, List.replicate_succ]
  | esc c b t d h1 _ ih =>
    have : strMask (0x5C :: c :: t ++ 0x22 :: s) true 0 = true :: true :: strMask (t ++ 0x22 :: s) true 0 := by simp [strMask]
    rw [this, ih]; rfl
  | uni e r t d h1 h2 _ ih =>
    rw [List.append_assoc, strMask_uesc h1, ih]; simp [← List.replicate_append_replicate]
  | pair e1 e2 hi lo t d h1 h2 _ _ _ _ _ ih =>
    rw [List.append_assoc, List.append_assoc, strMask_uesc h1, strMask_uesc h2, ih]; simp [← List.replicate_append_replicate]

theorem frag_mask {s it : Bytes} (h : Decoded s it) : ∀ i : Nat, (strMask s false 0)[i]? = some false → it[i]? = s[i]? := by
  induction h with
  | nil => intro i h; simp [strMask] at h
  | plain c s s' hc _ ih =>
    intro i h
    have : strMask (c :: s) false 0 = false :: strMask s false 0 := by
      simp only [strMask]; rw [show (c == 0x22) = false by simpa using hc]
    rw [this] at h
    match i with
    | 0 => rfl
    | i+1 => simpa using ih i (by simpa using h)
  | lit body d s s' hb _ ih =>
    intro i h
    have hl : (d ++ body.drop d.length).length = body.length := by have := lstr_short hb; simp; omega
    have : strMask (0x22 :: body ++ 0x22 :: s) false 0 = false :: strMask (body ++ 0x22 :: s) true 0 := by simp [strMask]
    rw [this, strMask_body hb] at h
    match i with
    | 0 => rfl
    | i+1 =>
      simp only [List.cons_append, List.getElem?_cons_succ] at h ⊢
      by_cases h1 : i < body.length
      · rw [List.getElem?_append_left (by simpa using h1)] at h
        simp [h1] at h
      · rw [List.getElem?_append_right (by simpa using h1)] at h
        rw [List.getElem?_append_right (by omega), List.getElem?_append_right (by omega), hl]
        simp only [List.length_replicate] at h
        match hj : i - body.length with
        | 0 => rfl
        | j+1 =>
          rw [hj] at h
          simpa using ih j (by simpa using h)

end JV
