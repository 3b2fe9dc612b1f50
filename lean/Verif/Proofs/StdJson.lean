import Verif.Model.StdJson
import Verif.Proofs.StrictScan
import Verif.Proofs.EscBytes
import Verif.Proofs.Export
import Verif.Proofs.Layout
/-!
What compacting does to JSON texts.
-/
namespace JV
open Spec

variable {E : Env} {S : SortFn} {o : Opt} {T : Escaper}

theorem byte_all {P : UInt8 → Prop} [DecidablePred P] (h : ∀ n, n < 256 → P (UInt8.ofNat n)) (c : UInt8) : P c := by
  have := h c.toNat c.toNat_lt; simpa using this

theorem compact_ws {w : Bytes} (hw : Ws w) (r : Bytes) : compact false false 0 (w ++ r) = compact false false 0 r := by
  induction w with
  | nil => rfl
  | cons c w ih =>
    have hc : blank c = true := by rcases hw c (by simp) with rfl | rfl | rfl | rfl <;> rfl
    rw [List.cons_append, compact]
    simp only [hc, if_true, Bool.false_eq_true, if_false]
    exact ih fun x hx => hw x (by simp [hx])

theorem compact_out {t : Bytes} (h : ∀ c ∈ t, blank c = false ∧ c ≠ 0x22) (r : Bytes) : compact false false 0 (t ++ r) = t ++ compact false false 0 r := by
  induction t with
  | nil => rfl
  | cons c t ih =>
    obtain ⟨h1, h2⟩ := h c (by simp)
    rw [List.cons_append, compact]
    simp only [h1, h2, Bool.false_eq_true, if_false, List.cons_append]
    rw [ih fun x hx => h x (by simp [hx])]

/-- bytes that are copied inside strings -/
def Copied (c : UInt8) : Prop := c ≠ 0x5C ∧ c ≠ 0x22 ∧ c ≠ 0x3C ∧ c ≠ 0x3E ∧ c ≠ 0x26 ∧ c ≠ 0xE2

theorem lineSep_e2 {c : UInt8} {t : Bytes} (h : c ≠ 0xE2) : lineSep (c :: t) = false := by
  simp [lineSep, h]

theorem compact_copy {c : UInt8} {t : Bytes} (h1 : c ≠ 0x5C ∧ c ≠ 0x22 ∧ c ≠ 0x3C ∧ c ≠ 0x3E ∧ c ≠ 0x26) (h2 : lineSep (c :: t) = false) :
    compact true false 0 (c :: t) = c :: compact true false 0 t := by
  rw [compact]
  simp [h1, h2]

theorem compact_in {t : Bytes} (h : ∀ c ∈ t, Copied c) (r : Bytes) : compact true false 0 (t ++ r) = t ++ compact true false 0 r := by
  induction t with
  | nil => rfl
  | cons c t ih =>
    obtain ⟨h1, h2, h3, h4, h5, h6⟩ := h c (by simp)
    rw [List.cons_append, compact_copy ⟨h1, h2, h3, h4, h5⟩ (lineSep_e2 h6), ih fun x hx => h x (by simp [hx])]
    rfl

theorem compact_pair (c : UInt8) (t : Bytes) : compact true false 0 (0x5C :: c :: t) = 0x5C :: c :: compact true false 0 t := by
  simp [compact]

/-- bytes allowed in the result: no control characters, nothing that HTML would take for markup -/
def OneLine (t : Bytes) : Prop := ∀ c ∈ t, 0x20 ≤ c.toNat ∧ c ≠ 0x3C ∧ c ≠ 0x3E ∧ c ≠ 0x26

theorem safe_app {a b : Bytes} (ha : OneLine a) (hb : OneLine b) : OneLine (a ++ b) := by
  intro c hc; rcases List.mem_append.1 hc with h | h
  · exact ha c h
  · exact hb c h

theorem safe_nil : OneLine [] := by intro c hc; cases hc

/-- ASCII without `<`, `>`, `&` -/
def Tame (t : Bytes) : Prop := ∀ c ∈ t, c.toNat < 0x80 ∧ c ≠ 0x3C ∧ c ≠ 0x3E ∧ c ≠ 0x26

theorem tame_app {a b : Bytes} (h : Tame (a ++ b)) : Tame a ∧ Tame b :=
  ⟨fun c hc => h c (by simp [hc]), fun c hc => h c (by simp [hc])⟩

theorem hex_facts {c : UInt8} {n : Nat} (h : Hex c n) : Copied c ∧ 0x20 ≤ c.toNat := by
  have : ∀ n, n < 256 → (let c := UInt8.ofNat n; ((0x30 ≤ c.toNat ∧ c.toNat ≤ 0x39) ∨ (0x41 ≤ c.toNat ∧ c.toNat ≤ 0x46) ∨ (0x61 ≤ c.toNat ∧ c.toNat ≤ 0x66)) →
      (c ≠ 0x5C ∧ c ≠ 0x22 ∧ c ≠ 0x3C ∧ c ≠ 0x3E ∧ c ≠ 0x26 ∧ c ≠ 0xE2) ∧ 0x20 ≤ c.toNat) := by decide +kernel
  have := this c.toNat c.toNat_lt
  simp only [UInt8.ofNat_toNat] at this
  refine this ?_
  rcases h with h | h | h
  · exact .inl ⟨h.1, h.2.1⟩
  · exact .inr (.inl ⟨h.1, h.2.1⟩)
  · exact .inr (.inr ⟨h.1, h.2.1⟩)

theorem compact_uesc {e : Bytes} {u : Nat} (h : UEsc e u) (r : Bytes) : compact true false 0 (e ++ r) = e ++ compact true false 0 r := by
  obtain ⟨a, b, c, d, _, _, _, _, rfl, ha, hb, hc, hd, -⟩ := h
  have : [0x5C, 0x75, a, b, c, d] ++ r = 0x5C :: 0x75 :: ([a, b, c, d] ++ r) := rfl
  rw [this, compact_pair, compact_in]
  · rfl
  · intro x hx
    simp only [List.mem_cons, List.not_mem_nil, or_false] at hx
    rcases hx with rfl | rfl | rfl | rfl
    · exact (hex_facts ha).1
    · exact (hex_facts hb).1
    · exact (hex_facts hc).1
    · exact (hex_facts hd).1

theorem safe_uesc {e : Bytes} {u : Nat} (h : UEsc e u) : OneLine e := by
  obtain ⟨a, b, c, d, _, _, _, _, rfl, ha, hb, hc, hd, -⟩ := h
  have hx : ∀ {x : UInt8} {n : Nat}, Hex x n → 0x20 ≤ x.toNat ∧ x ≠ 0x3C ∧ x ≠ 0x3E ∧ x ≠ 0x26 := fun h => ⟨(hex_facts h).2, (hex_facts h).1.2.2.1, (hex_facts h).1.2.2.2.1, (hex_facts h).1.2.2.2.2.1⟩
  intro x hm
  simp only [List.mem_cons, List.not_mem_nil, or_false] at hm
  rcases hm with rfl | rfl | rfl | rfl | rfl | rfl
  · decide
  · decide
  · exact hx ha
  · exact hx hb
  · exact hx hc
  · exact hx hd

/-- continuation bytes and most first bytes are copied -/
theorem copied_high {c : UInt8} (h : 0x80 ≤ c.toNat) (h2 : c ≠ 0xE2) : Copied c := by
  refine ⟨?_, ?_, ?_, ?_, ?_, h2⟩ <;> (rintro rfl; exact absurd h (by decide))

theorem uesc_low (a b : UInt8) (c x3 x2 : Nat) (ha : Hex a x3) (hb : Hex b x2) (hc : c < 256) : UEsc (lowEsc [a, b] (UInt8.ofNat c)) (x3 * 4096 + x2 * 256 + c) := by
  have hd : ∀ n, n < 16 → (let x : UInt8 := if n < 10 then UInt8.ofNat (0x30 + n) else UInt8.ofNat (0x57 + n)
      (0x30 ≤ x.toNat ∧ x.toNat ≤ 0x39 ∧ n = x.toNat - 0x30) ∨ (0x41 ≤ x.toNat ∧ x.toNat ≤ 0x46 ∧ n = x.toNat - 0x41 + 10) ∨ (0x61 ≤ x.toNat ∧ x.toNat ≤ 0x66 ∧ n = x.toNat - 0x61 + 10)) := by decide
  refine ⟨a, b, _, _, x3, x2, c / 16, c % 16, rfl, ha, hb, ?_, ?_, by omega⟩
  · have := hd (c / 16) (by omega)
    rw [toNat_ofNat hc]; exact this
  · have := hd (c % 16) (by omega)
    rw [toNat_ofNat hc]; exact this

/-- one character of a string -/
theorem compact_char {r : Nat} (hr : Scalar r) (h0 : 0x20 ≤ r) (h1 : r ≠ 0x22) (h2 : r ≠ 0x5C) :
    ∃ e, (e = utf8 r ∨ UEsc e r) ∧ OneLine e ∧ (∀ rest, compact true false 0 (utf8 r ++ rest) = e ++ compact true false 0 rest) ∧ (Tame (utf8 r) → e = utf8 r) := by
  by_cases h8 : r < 0x80
  · have hu := utf8_ascii h8
    by_cases hh : r = 0x3C ∨ r = 0x3E ∨ r = 0x26
    · have hz : Hex 0x30 0 := .inl ⟨by decide, by decide, by decide⟩
      have hue : UEsc (lowEsc [0x30, 0x30] (UInt8.ofNat r)) r := by
        have := uesc_low 0x30 0x30 r 0 0 hz hz (by omega)
        simpa using this
      refine ⟨lowEsc [0x30, 0x30] (UInt8.ofNat r), .inr hue, safe_uesc hue, fun rest => ?_, fun ht => ?_⟩
      · rw [hu, List.singleton_append, compact]
        rcases hh with rfl | rfl | rfl <;> simp
      · exfalso
        have := ht (UInt8.ofNat r) (by rw [hu]; simp)
        rcases hh with rfl | rfl | rfl <;> revert this <;> decide
    · have hc : ∀ n, n < 0x80 → (0x20 ≤ n ∧ n ≠ 0x22 ∧ n ≠ 0x5C ∧ ¬ (n = 0x3C ∨ n = 0x3E ∨ n = 0x26)) → (let c := UInt8.ofNat n
          (c ≠ 0x5C ∧ c ≠ 0x22 ∧ c ≠ 0x3C ∧ c ≠ 0x3E ∧ c ≠ 0x26 ∧ c ≠ 0xE2) ∧ 0x20 ≤ c.toNat) := by decide +kernel
      obtain ⟨hcp, hct⟩ := hc r h8 ⟨h0, h1, h2, hh⟩
      refine ⟨utf8 r, .inl rfl, ?_, compact_in ?_, fun _ => rfl⟩
      · rw [hu]; intro c hc; rw [List.mem_singleton] at hc; subst hc
        exact ⟨hct, hcp.2.2.1, hcp.2.2.2.1, hcp.2.2.2.2.1⟩
      · rw [hu]; intro c hc; rw [List.mem_singleton] at hc; subst hc; exact hcp
  · have hr' : r < 0x110000 := by unfold Scalar at hr; omega
    have hhi : ∀ c ∈ utf8 r, 0x80 ≤ c.toNat := fun c hc => by
      rcases utf8_high (by omega) c hc with h | h
      · exact h
      · omega
    have hsafe : OneLine (utf8 r) := fun c hc => by
      have := hhi c hc
      refine ⟨by omega, ?_, ?_, ?_⟩ <;> (rintro rfl; exact absurd this (by decide))
    by_cases hs : r = 0x2028 ∨ r = 0x2029
    · have hue : UEsc (lowEsc [0x32, 0x30] (UInt8.ofNat (r - 0x2000))) r := by
        have := uesc_low 0x32 0x30 (r - 0x2000) 2 0 (.inl ⟨by decide, by decide, by decide⟩) (.inl ⟨by decide, by decide, by decide⟩) (by omega)
        have he : 2 * 4096 + 0 * 256 + (r - 0x2000) = r := by omega
        rwa [he] at this
      refine ⟨_, .inr hue, safe_uesc hue, fun rest => ?_, fun ht => ?_⟩
      · rcases hs with rfl | rfl
        · rw [show utf8 0x2028 ++ rest = 0xE2 :: 0x80 :: 0xA8 :: rest from rfl, compact]
          simp [lineSep, compact, List.getD]
        · rw [show utf8 0x2029 ++ rest = 0xE2 :: 0x80 :: 0xA9 :: rest from rfl, compact]
          simp [lineSep, compact, List.getD]
      · exfalso
        rcases hs with rfl | rfl <;> exact absurd ht (by unfold Tame; decide)
    · refine ⟨utf8 r, .inl rfl, hsafe, fun rest => ?_, fun _ => rfl⟩
      by_cases he2 : ∀ c ∈ utf8 r, c ≠ 0xE2
      · exact compact_in (fun c hc => copied_high (hhi c hc) (he2 c hc)) rest
      · -- only three-byte sequences contain E2, as the first byte
        have hx : ∃ b c : UInt8, utf8 r = [0xE2, b, c] ∧ b ≠ 0xE2 ∧ c ≠ 0xE2 ∧ ¬ (b = 0x80 ∧ (c = 0xA8 ∨ c = 0xA9)) := by
          have hne : ∀ (n : Nat), n < 256 → n ≠ 0xE2 → UInt8.ofNat n ≠ 0xE2 := fun n hn hne he => by
            have := congrArg UInt8.toNat he
            rw [toNat_ofNat hn] at this
            exact hne this
          have heq : ∀ (n m : Nat), n < 256 → m < 256 → UInt8.ofNat n = UInt8.ofNat m → n = m := fun n m hn hm he => by
            have := congrArg UInt8.toNat he
            rwa [toNat_ofNat hn, toNat_ofNat hm] at this
          unfold utf8 at he2 ⊢
          rw [if_neg h8] at he2 ⊢
          by_cases ha : r < 0x800
          · exfalso; rw [if_pos ha] at he2
            refine he2 fun c hc => ?_
            simp only [List.mem_cons, List.not_mem_nil, or_false] at hc
            rcases hc with rfl | rfl <;> exact hne _ (by omega) (by omega)
          · rw [if_neg ha] at he2 ⊢
            by_cases hb : r < 0x10000
            · rw [if_pos hb] at he2 ⊢
              have h1 : r / 4096 = 2 := by
                by_cases hz : r / 4096 = 2
                · exact hz
                · exfalso
                  refine he2 fun c hc => ?_
                  simp only [List.mem_cons, List.not_mem_nil, or_false] at hc
                  rcases hc with rfl | rfl | rfl
                  · exact hne _ (by omega) (by omega)
                  · exact hne _ (by omega) (by omega)
                  · exact hne _ (by omega) (by omega)
              refine ⟨_, _, by rw [h1]; rfl, hne _ (by omega) (by omega), hne _ (by omega) (by omega), ?_⟩
              rintro ⟨h3, h4⟩
              have h3 := heq _ 0x80 (by omega) (by omega) h3
              rcases h4 with h4 | h4
              · have h4 := heq _ 0xA8 (by omega) (by omega) h4; omega
              · have h4 := heq _ 0xA9 (by omega) (by omega) h4; omega
            · exfalso; rw [if_neg hb] at he2
              refine he2 fun c hc => ?_
              simp only [List.mem_cons, List.not_mem_nil, or_false] at hc
              rcases hc with rfl | rfl | rfl | rfl <;> exact hne _ (by omega) (by omega)
        obtain ⟨b, c, hbc, hb, hc, hns⟩ := hx
        have hb8 := hhi b (by rw [hbc]; simp)
        have hc8 := hhi c (by rw [hbc]; simp)
        have hls : lineSep (0xE2 :: ([b, c] ++ rest)) = false := by
          simp [lineSep]
          grind
        have hin : ∀ x ∈ [b, c], Copied x := fun x hx => by
          simp only [List.mem_cons, List.not_mem_nil, or_false] at hx
          rcases hx with rfl | rfl
          · exact copied_high hb8 hb
          · exact copied_high hc8 hc
        rw [hbc, List.cons_append, compact_copy (by decide) hls, compact_in hin]
        rfl

/-- the inside of a string literal -/
theorem compact_body {t d : Bytes} (h : StrBody t d) : ∃ t', StrBody t' d ∧ OneLine t' ∧ (∀ rest, compact true false 0 (t ++ rest) = t' ++ compact true false 0 rest) ∧ (Tame t → t' = t) := by
  induction h with
  | nil => exact ⟨[], .nil, safe_nil, fun _ => rfl, fun _ => rfl⟩
  | char r t d hr h0 h1 h2 _ ih =>
    obtain ⟨t', i1, i2, i3, i4⟩ := ih
    obtain ⟨e, he, hs, hc, hp⟩ := compact_char hr h0 h1 h2
    refine ⟨e ++ t', ?_, safe_app hs i2, fun rest => by rw [List.append_assoc, hc, i3, List.append_assoc], fun ht => by rw [hp (tame_app ht).1, i4 (tame_app ht).2]⟩
    rcases he with rfl | he
    · exact .char r t' d hr h0 h1 h2 i1
    · exact .uni e r t' d he hr i1
  | esc c b t d he _ ih =>
    obtain ⟨t', i1, i2, i3, i4⟩ := ih
    refine ⟨0x5C :: c :: t', .esc c b t' d he i1, ?_, fun rest => ?_, fun ht => ?_⟩
    · refine safe_app (a := [0x5C, c]) ?_ i2
      rcases he with ⟨rfl, -⟩ | ⟨rfl, -⟩ | ⟨rfl, -⟩ | ⟨rfl, -⟩ | ⟨rfl, -⟩ | ⟨rfl, -⟩ | ⟨rfl, -⟩ | ⟨rfl, -⟩ <;> (unfold OneLine; decide)
    · rw [List.cons_append, List.cons_append, compact_pair, i3]; rfl
    · rw [i4 (tame_app (a := [0x5C, c]) ht).2]
  | uni e r t d he hr _ ih =>
    obtain ⟨t', i1, i2, i3, i4⟩ := ih
    exact ⟨e ++ t', .uni e r t' d he hr i1, safe_app (safe_uesc he) i2, fun rest => by rw [List.append_assoc, compact_uesc he, i3, List.append_assoc],
      fun ht => by rw [i4 (tame_app ht).2]⟩
  | pair e1 e2 hi lo t d h1 h2 h3 h4 h5 h6 _ ih =>
    obtain ⟨t', i1, i2, i3, i4⟩ := ih
    exact ⟨e1 ++ e2 ++ t', .pair e1 e2 hi lo t' d h1 h2 h3 h4 h5 h6 i1, safe_app (safe_app (safe_uesc h1) (safe_uesc h2)) i2,
      fun rest => by rw [List.append_assoc, List.append_assoc, compact_uesc h1, compact_uesc h2, i3, List.append_assoc, List.append_assoc],
      fun ht => by rw [i4 (tame_app ht).2]⟩

theorem compact_quote_in (r : Bytes) : compact false false 0 (0x22 :: r) = 0x22 :: compact true false 0 r := by simp [compact, blank]
theorem compact_quote_out (r : Bytes) : compact true false 0 (0x22 :: r) = 0x22 :: compact false false 0 r := by simp [compact]

theorem compact_lit {t t' : Bytes} (h : ∀ rest, compact true false 0 (t ++ rest) = t' ++ compact true false 0 rest) (rest : Bytes) :
    compact false false 0 (0x22 :: t ++ [0x22] ++ rest) = (0x22 :: t' ++ [0x22]) ++ compact false false 0 rest := by
  rw [List.append_assoc, List.cons_append, compact_quote_in, h, List.singleton_append, compact_quote_out]
  simp

theorem compact_str {t d : Bytes} (h : JStr t d) : ∃ t', JStr t' d ∧ OneLine t' ∧ ∀ rest, compact false false 0 (t ++ rest) = t' ++ compact false false 0 rest := by
  obtain ⟨body, rfl, hb⟩ := h
  obtain ⟨t', i1, i2, i3, -⟩ := compact_body hb
  exact ⟨_, ⟨t', rfl, i1⟩, safe_app (safe_app (a := [0x22]) (by unfold OneLine; decide) i2) (by unfold OneLine; decide), compact_lit i3⟩

theorem compact_one {c : UInt8} (h : blank c = false) (h2 : c ≠ 0x22) (r : Bytes) : compact false false 0 (c :: r) = c :: compact false false 0 r :=
  compact_out (t := [c]) (by simp [h, h2]) r

theorem scNum_out : ∀ c : UInt8, scNum c = true → (blank c = false ∧ c ≠ 0x22) ∧ (0x20 ≤ c.toNat ∧ c ≠ 0x3C ∧ c ≠ 0x3E ∧ c ≠ 0x26) := by
  have : ∀ n, n < 256 → (let c := UInt8.ofNat n; scNum c = true → (blank c = false ∧ c ≠ 0x22) ∧ (0x20 ≤ c.toNat ∧ c ≠ 0x3C ∧ c ≠ 0x3E ∧ c ≠ 0x26)) := by decide +kernel
  intro c; have := this c.toNat c.toNat_lt; simpa using this

def CVal (t : Bytes) (j : J) : Prop := ∃ t', JVal t' j ∧ OneLine t' ∧ ∀ rest, compact false false 0 (t ++ rest) = t' ++ compact false false 0 rest
def CElems (t : Bytes) (js : List J) : Prop := ∃ t', JElems t' js ∧ OneLine t' ∧ ∀ rest, compact false false 0 (t ++ rest) = t' ++ compact false false 0 rest
def CMems (t : Bytes) (ms : List Mem) : Prop := ∃ t', JMems t' ms ∧ OneLine t' ∧ ∀ rest, compact false false 0 (t ++ rest) = t' ++ compact false false 0 rest

theorem compact_val {t : Bytes} {j : J} (h : JVal t j) : CVal t j := by
  refine @JVal.rec (fun t j _ => CVal t j) (fun t js _ => CElems t js) (fun t ms _ => CMems t ms)
    ?_ ?_ ?_ ?_ ?_ ?_ ?_ ?_ ?_ ?_ ?_ ?_ ?_ t j h
  · exact ⟨_, .null, by unfold OneLine; decide, compact_out (by decide)⟩
  · exact ⟨_, .tru, by unfold OneLine; decide, compact_out (by decide)⟩
  · exact ⟨_, .fls, by unfold OneLine; decide, compact_out (by decide)⟩
  · intro t ht
    have := (jnum_chars ht).2
    exact ⟨t, .num t ht, fun c hc => (scNum_out c (this c hc)).2, compact_out fun c hc => (scNum_out c (this c hc)).1⟩
  · intro t d ht
    obtain ⟨t', h1, h2, h3⟩ := compact_str ht
    exact ⟨t', .str t' d h1, h2, h3⟩
  · intro w hw
    refine ⟨[0x5B, 0x5D], .arrNil [] ws_nil, by unfold OneLine; decide, fun rest => ?_⟩
    rw [List.cons_append, List.cons_append, compact_one (by decide) (by decide), List.append_assoc, compact_ws hw, List.singleton_append, compact_one (by decide) (by decide)]
    rfl
  · rintro t xs - ⟨t', h1, h2, h3⟩
    refine ⟨0x5B :: t' ++ [0x5D], .arr t' xs h1, safe_app (safe_app (a := [0x5B]) (by unfold OneLine; decide) h2) (by unfold OneLine; decide), fun rest => ?_⟩
    rw [List.cons_append, List.cons_append, compact_one (by decide) (by decide), List.append_assoc, h3, List.singleton_append, compact_one (by decide) (by decide)]
    simp
  · intro w hw
    refine ⟨[0x7B, 0x7D], .objNil [] ws_nil, by unfold OneLine; decide, fun rest => ?_⟩
    rw [List.cons_append, List.cons_append, compact_one (by decide) (by decide), List.append_assoc, compact_ws hw, List.singleton_append, compact_one (by decide) (by decide)]
    rfl
  · rintro t xs - ⟨t', h1, h2, h3⟩
    refine ⟨0x7B :: t' ++ [0x7D], .obj t' xs h1, safe_app (safe_app (a := [0x7B]) (by unfold OneLine; decide) h2) (by unfold OneLine; decide), fun rest => ?_⟩
    rw [List.cons_append, List.cons_append, compact_one (by decide) (by decide), List.append_assoc, h3, List.singleton_append, compact_one (by decide) (by decide)]
    simp
  · rintro w1 t w2 v hw1 - hw2 ⟨t', h1, h2, h3⟩
    refine ⟨[] ++ t' ++ [], .one [] t' [] v ws_nil h1 ws_nil, by simpa using h2, fun rest => ?_⟩
    rw [List.append_assoc, List.append_assoc, compact_ws hw1, h3, compact_ws hw2]
    simp
  · rintro w1 t w2 ts v vs hw1 - hw2 - ⟨t', h1, h2, h3⟩ ⟨ts', i1, i2, i3⟩
    refine ⟨[] ++ t' ++ [] ++ 0x2C :: ts', .cons [] t' [] ts' v vs ws_nil h1 ws_nil i1, ?_, fun rest => ?_⟩
    · simpa using safe_app h2 (safe_app (a := [0x2C]) (by unfold OneLine; decide) i2)
    · rw [List.append_assoc, List.append_assoc, List.append_assoc, compact_ws hw1, h3, compact_ws hw2, List.cons_append, compact_one (by decide) (by decide), i3]
      simp
  · rintro w1 k w2 w3 t w4 d v hw1 hk hw2 hw3 - hw4 ⟨t', h1, h2, h3⟩
    obtain ⟨k', k1, k2, k3⟩ := compact_str hk
    refine ⟨[] ++ k' ++ [] ++ 0x3A :: ([] ++ t' ++ []), .one [] k' [] [] t' [] d v ws_nil k1 ws_nil ws_nil h1 ws_nil, ?_, fun rest => ?_⟩
    · simpa using safe_app k2 (safe_app (a := [0x3A]) (by unfold OneLine; decide) h2)
    · rw [List.append_assoc, List.append_assoc, List.append_assoc, compact_ws hw1, k3, compact_ws hw2, List.cons_append, compact_one (by decide) (by decide),
        List.append_assoc, List.append_assoc, compact_ws hw3, h3, compact_ws hw4]
      simp
  · rintro w1 k w2 w3 t w4 d ts v vs hw1 hk hw2 hw3 - hw4 - ⟨t', h1, h2, h3⟩ ⟨ts', i1, i2, i3⟩
    obtain ⟨k', k1, k2, k3⟩ := compact_str hk
    refine ⟨[] ++ k' ++ [] ++ 0x3A :: ([] ++ t' ++ [] ++ 0x2C :: ts'), .cons [] k' [] [] t' [] d ts' v vs ws_nil k1 ws_nil ws_nil h1 ws_nil i1, ?_, fun rest => ?_⟩
    · simpa using safe_app k2 (safe_app (a := [0x3A]) (by unfold OneLine; decide) (safe_app h2 (safe_app (a := [0x2C]) (by unfold OneLine; decide) i2)))
    · rw [List.append_assoc, List.append_assoc, List.append_assoc, compact_ws hw1, k3, compact_ws hw2, List.cons_append, compact_one (by decide) (by decide),
        List.append_assoc, List.append_assoc, List.append_assoc, compact_ws hw3, h3, compact_ws hw4, List.cons_append, compact_one (by decide) (by decide), i3]
      simp

/-- Compacting keeps the document. -/
theorem compact_text {s : Bytes} {j : J} (h : JText s j) : JText (compact false false 0 s) j ∧ OneLine (compact false false 0 s) := by
  obtain ⟨w1, t, w2, rfl, h1, h2, h3⟩ := h
  obtain ⟨t', i1, i2, i3⟩ := compact_val h2
  have hc : compact false false 0 (w1 ++ t ++ w2) = t' := by
    rw [List.append_assoc, compact_ws h1, i3]
    have := compact_ws h3 []
    rw [List.append_nil] at this
    rw [this]
    simp [compact]
  rw [hc]
  exact ⟨⟨[], t', [], by simp, ws_nil, i1, ws_nil⟩, i2⟩

/-! indentation -/

theorem nl_none (n : Nat) : nl none n = [] := rfl

/-- compacting the tokens gives the same text for every layout -/
def CDoc (t : Doc) : Prop := ∃ t', ∀ ind, WsIndent ind → ∀ n rest, compact false false 0 (t.print ind n ++ rest) = t' ++ compact false false 0 rest

theorem compact_elems : ∀ (xs : List Doc) (first : Bool), (∀ x ∈ xs, CDoc x) →
    ∃ u, ∀ ind, WsIndent ind → ∀ n rest, compact false false 0 (printElems ind n first xs ++ rest) = u ++ compact false false 0 rest
  | [], _, _ => ⟨[], fun ind _ n rest => by simp [printElems]⟩
  | x :: xs, first, h => by
    obtain ⟨t, ht⟩ := h x (by simp)
    obtain ⟨u, hu⟩ := compact_elems xs false fun y hy => h y (by simp [hy])
    refine ⟨(if first then [] else [0x2C]) ++ (t ++ u), fun ind hi n rest => ?_⟩
    rw [printElems]
    cases first
    · simp only [Bool.false_eq_true, if_false, List.append_assoc, List.nil_append, List.cons_append]
      rw [compact_one (by decide) (by decide), compact_ws (nl_ws hi n), ht ind hi, hu ind hi]
    · simp only [if_true, List.append_assoc, List.nil_append]
      rw [compact_ws (nl_ws hi n), ht ind hi, hu ind hi]

theorem compact_mems : ∀ (ms : List DMem), (∀ m ∈ ms, ∃ k', ∀ rest, compact true false 0 (DMem.key m ++ rest) = k' ++ compact true false 0 rest) → (∀ m ∈ ms, CDoc (DMem.v m)) →
    ∃ u, ∀ ind, WsIndent ind → ∀ n rest, compact false false 0 (printMems ind n ms ++ rest) = u ++ compact false false 0 rest
  | [], _, _ => ⟨[], fun ind _ n rest => by simp [printMems]⟩
  | ⟨comma, k, v⟩ :: ms, hk, hv => by
    obtain ⟨k', hk'⟩ := hk ⟨comma, k, v⟩ (by simp)
    obtain ⟨t, ht⟩ := hv ⟨comma, k, v⟩ (by simp)
    obtain ⟨u, hu⟩ := compact_mems ms (fun m hm => hk m (by simp [hm])) fun m hm => hv m (by simp [hm])
    simp only [DMem.key] at hk'
    simp only [DMem.v] at ht
    have hsp : ∀ (b : Bool) (r : Bytes), compact false false 0 ((if b then [0x20] else []) ++ r) = compact false false 0 r := fun b r => compact_ws (space_ws b) r
    refine ⟨(if comma then [0x2C] else []) ++ ((0x22 :: k' ++ [0x22]) ++ (0x3A :: (t ++ u))), fun ind hi n rest => ?_⟩
    have key : ∀ r, compact false false 0 (nl ind n ++ 0x22 :: (k ++ 0x22 :: 0x3A :: ((if ind.isSome then [0x20] else []) ++ v.print ind n ++ printMems ind n ms)) ++ r) =
        (0x22 :: k' ++ [0x22]) ++ (0x3A :: (t ++ (u ++ compact false false 0 r))) := fun r => by
      have hl := compact_lit hk' (0x3A :: ((if ind.isSome then [0x20] else []) ++ v.print ind n ++ printMems ind n ms) ++ r)
      rw [List.append_assoc, compact_ws (nl_ws hi n)]
      simp only [List.append_assoc, List.cons_append, List.singleton_append, List.nil_append] at hl ⊢
      rw [hl, compact_one (by decide) (by decide), hsp, ht ind hi, hu ind hi]
    rw [printMems]
    cases comma
    · simp only [Bool.false_eq_true, if_false, List.nil_append]
      rw [key]; simp
    · simp only [if_true, List.append_assoc, List.singleton_append, List.cons_append, List.nil_append]
      rw [compact_one (by decide) (by decide)]
      have := key rest
      simp only [List.append_assoc, List.cons_append] at this
      rw [this]; simp

theorem mem_get {α β : Type} {xs : List α} {ys : List β} (hl : ys.length = xs.length) {x : α} (hx : x ∈ xs) : ∃ (i : Nat) (y : β), xs[i]? = some x ∧ ys[i]? = some y := by
  obtain ⟨i, hi⟩ := List.mem_iff_getElem?.1 hx
  have h1 := (List.getElem?_eq_some_iff.1 hi).1
  exact ⟨i, ys[i], hi, List.getElem?_eq_getElem (by omega)⟩

theorem compact_doc {str : Bytes → Bytes → Prop} {C : List DMem → Prop} (hs : ∀ t d, str t d → ∃ t', ∀ rest, compact true false 0 (t ++ rest) = t' ++ compact true false 0 rest)
    {t : Doc} {j : J} (h : DocJ JNum str C t j) : CDoc t := by
  induction h with
  | null => exact ⟨nullText, fun ind _ n rest => compact_out (t := nullText) (by decide) rest⟩
  | bool b => exact ⟨formatBool b, fun ind _ n rest => compact_out (t := formatBool b) (by cases b <;> decide) rest⟩
  | num t ht => exact ⟨t, fun ind _ n rest => compact_out (t := t) (fun c hc => (scNum_out c ((jnum_chars ht).2 c hc)).1) rest⟩
  | str t d ht =>
    obtain ⟨t', h⟩ := hs t d ht
    exact ⟨0x22 :: t' ++ [0x22], fun ind _ n rest => compact_lit h rest⟩
  | arrNil => exact ⟨[0x5B, 0x5D], fun ind _ n rest => compact_out (t := [0x5B, 0x5D]) (by decide) rest⟩
  | objNil => exact ⟨[0x7B, 0x7D], fun ind _ n rest => compact_out (t := [0x7B, 0x7D]) (by decide) rest⟩
  | arr xs js hne hl _ ih =>
    obtain ⟨u, hu⟩ := compact_elems xs true fun x hx => by
      obtain ⟨i, j, h1, h2⟩ := mem_get hl hx
      exact ih i x j h1 h2
    refine ⟨0x5B :: (u ++ [0x5D]), fun ind hi n rest => ?_⟩
    rw [Doc.print]
    simp only [List.cons_append, List.append_assoc, List.nil_append]
    rw [compact_one (by decide) (by decide), hu ind hi, compact_ws (nl_ws hi n), compact_one (by decide) (by decide)]
  | obj ms es hC hl hk _ ih =>
    obtain ⟨u, hu⟩ := compact_mems ms (fun m hm => by
      obtain ⟨i, e, h1, h2⟩ := mem_get hl hm
      exact hs _ _ (hk i m e h1 h2)) fun m hm => by
      obtain ⟨i, e, h1, h2⟩ := mem_get hl hm
      exact ih i m e h1 h2
    refine ⟨0x7B :: (u ++ [0x7D]), fun ind hi n rest => ?_⟩
    rw [Doc.print]
    simp only [List.cons_append, List.append_assoc, List.nil_append]
    rw [compact_one (by decide) (by decide), hu ind hi, compact_ws (nl_ws hi n), compact_one (by decide) (by decide)]

/-! text that is compact already -/

def Kept (s : Bytes) : Prop := ∀ rest, compact false false 0 (s ++ rest) = s ++ compact false false 0 rest

theorem kept_app {a b : Bytes} (ha : Kept a) (hb : Kept b) : Kept (a ++ b) := fun rest => by
  rw [List.append_assoc, ha, hb, List.append_assoc]

theorem kept_nil : Kept [] := fun _ => rfl

theorem kept_one {c : UInt8} (h : blank c = false) (h2 : c ≠ 0x22) : Kept [c] := fun r => compact_one h h2 r

theorem kept_elems (n : Nat) : ∀ (xs : List Doc) (first : Bool), (∀ x ∈ xs, ∀ n, Kept (x.print none n)) → Kept (printElems none n first xs)
  | [], _, _ => kept_nil
  | x :: xs, first, h => by
    rw [printElems, nl_none, List.append_nil]
    refine kept_app (kept_app ?_ (h x (by simp) n)) (kept_elems n xs false fun y hy => h y (by simp [hy]))
    cases first
    · exact kept_one (by decide) (by decide)
    · exact kept_nil

theorem kept_mems (n : Nat) : ∀ (ms : List DMem), (∀ m ∈ ms, Kept (0x22 :: DMem.key m ++ [0x22])) → (∀ m ∈ ms, ∀ n, Kept ((DMem.v m).print none n)) → Kept (printMems none n ms)
  | [], _, _ => kept_nil
  | ⟨comma, k, v⟩ :: ms, hk, hv => by
    have h1 := hk ⟨comma, k, v⟩ (by simp)
    have h2 := hv ⟨comma, k, v⟩ (by simp) n
    have h3 := kept_mems n ms (fun m hm => hk m (by simp [hm])) fun m hm => hv m (by simp [hm])
    have h0 : Kept (if comma then [0x2C] else []) := by
      cases comma
      · exact kept_nil
      · exact kept_one (by decide) (by decide)
    have := kept_app h0 (kept_app h1 (kept_app (kept_one (c := 0x3A) (by decide) (by decide)) (kept_app h2 h3)))
    rw [printMems, nl_none]
    simpa [DMem.key, DMem.v] using this

theorem kept_doc {str : Bytes → Bytes → Prop} {C : List DMem → Prop} (hs : ∀ t d, str t d → Kept (0x22 :: t ++ [0x22])) {t : Doc} {j : J} (h : DocJ JNum str C t j) :
    ∀ n, Kept (t.print none n) := by
  induction h with
  | null => exact fun n => compact_out (t := nullText) (by decide)
  | bool b => exact fun n => compact_out (t := formatBool b) (by cases b <;> decide)
  | num t ht => exact fun n => compact_out (t := t) fun c hc => (scNum_out c ((jnum_chars ht).2 c hc)).1
  | str t d ht => exact fun n => hs t d ht
  | arrNil => exact fun n => compact_out (t := [0x5B, 0x5D]) (by decide)
  | objNil => exact fun n => compact_out (t := [0x7B, 0x7D]) (by decide)
  | arr xs js hne hl _ ih =>
    intro n
    rw [Doc.print, nl_none, List.append_nil]
    refine kept_app (a := [0x5B]) (kept_one (by decide) (by decide)) (kept_app (kept_elems (n + 1) xs true fun x hx => ?_) (kept_one (by decide) (by decide)))
    obtain ⟨i, j, h1, h2⟩ := mem_get hl hx
    exact ih i x j h1 h2
  | obj ms es hC hl hk _ ih =>
    intro n
    rw [Doc.print, nl_none, List.append_nil]
    refine kept_app (a := [0x7B]) (kept_one (by decide) (by decide)) (kept_app (kept_mems (n + 1) ms (fun m hm => ?_) fun m hm => ?_) (kept_one (by decide) (by decide)))
    · obtain ⟨i, e, h1, h2⟩ := mem_get hl hm
      exact hs _ _ (hk i m e h1 h2)
    · obtain ⟨i, e, h1, h2⟩ := mem_get hl hm
      exact ih i m e h1 h2

/-! what Marshal writes -/

/-- the tokens Marshal writes, under the conditions of C10 -/
theorem marshal_docJ {str : Bytes → Bytes → Prop} (hS : GoodSort S) (d : Opt) {v : V} (hv : Marshalable v) {opts : List MOpt} {b : Bytes}
    (hs : StrOK (escOf d opts) (fun s => 0xB ∉ s) str)
    (hp : Her (Printable E (optOf d opts) JNum (fun s => 0xB ∉ s)) v) (hn : Her (NothingOmitted (optOf d opts)) v)
    (h : marshal E S d v opts = .ok (b, none)) : b = (doc E S (optOf d opts) (escOf d opts) v none).print (optOf d opts).indent 0 ∧
      ∃ j, DocJ JNum str Commas (doc E S (optOf d opts) (escOf d opts) v none) j := by
  obtain ⟨-, rfl⟩ := marshal_ok hv h
  obtain ⟨j, h1, h2⟩ := doc_shows (E := E) (o := optOf d opts) (C := Commas) hS hs (CN := NothingOmitted (optOf d opts)) (by
    intro n kvs low hc es par f hes
    refine (docMems_commas es ?_).2
    intro e he
    cases ho : (optOf d opts).omitNull with
    | false => simp
    | true => simp [hc ho e (hes e he)]) v hv.1 hp hn [] none (fun _ => ⟨fun _ => rfl, fun h => absurd rfl h⟩) (fun _ => rfl)
  exact ⟨rfl, j, h2⟩

/-- string bodies with only ASCII and without `<`, `>`, `&` -/
def TameBody (t d : Bytes) : Prop := StrBody t d ∧ Tame t

theorem tameBody_kept {t d : Bytes} (h : TameBody t d) : Kept (0x22 :: t ++ [0x22]) := by
  obtain ⟨t', -, -, h3, h4⟩ := compact_body h.1
  have := compact_lit h3
  rwa [h4 h.2] at this

theorem strOK_tame {d : Opt} {opts : List MOpt} (hu : escHas (optOf d opts).escProps escapeUTF8 = false) (hh : escHas (optOf d opts).escProps escapeWithoutHTML = false) :
    StrOK (escOf d opts) (fun s => 0xB ∉ s) TameBody where
  esc s hs := ⟨(strOK_strict (escOf_ok d opts)).esc s hs, by
    have e := escText_spec (optOf d opts).escProps (Decodes_runes s)
    rw [hu, hh] at e
    intro c hc
    have hc : c ∈ escText (parseEscapingFuncs (optOf d opts).escProps) s := hc
    rw [e] at hc
    obtain ⟨r, hr, hc⟩ := List.mem_flatMap.1 hc
    have := escSpec_ascii (!escHas (optOf d opts).escProps escapeIgnoreSlash) (!false) ((Decodes_runes s).scalar r hr) c hc
    refine ⟨?_, this.2 rfl⟩
    rcases this.1 with h3 | h3
    · have := h3.2; omega
    · subst h3; decide⟩
  plain := by
    obtain ⟨h1, h2, h3⟩ := (strOK_strict (escOf_ok d opts)).plain
    exact ⟨⟨h1, by unfold Tame; decide⟩, ⟨h2, by unfold Tame; decide⟩, ⟨h3, by unfold Tame; decide⟩⟩
  clean := (strOK_strict (escOf_ok d opts)).clean

/-- options that differ in the indentation only -/
theorem combine_indent (x : Option (Bytes × Bytes)) : ∀ (opts : List MOpt) (o : Opt), ∃ y, opts.foldl MOpt.mergeTo { o with indent := x } = { opts.foldl MOpt.mergeTo o with indent := y }
  | [], o => ⟨x, rfl⟩
  | op :: opts, o => by
    have : ∃ z, MOpt.mergeTo { o with indent := x } op = { MOpt.mergeTo o op with indent := z } := by
      cases op with
      | less f => cases f <;> exact ⟨_, rfl⟩
      | _ => exact ⟨_, rfl⟩
    obtain ⟨z, hz⟩ := this
    obtain ⟨y, hy⟩ := combine_indent z opts (MOpt.mergeTo o op)
    exact ⟨y, by rw [List.foldl_cons, hz, hy, List.foldl_cons]⟩

end JV
