import Verif.Proofs.Strict
import Verif.Proofs.Marshal
/-! The JSON grammar of Spec/Json is unambiguous: a text is at most one document. -/
namespace JV
open Spec

theorem hex_inj {c : UInt8} {m n : Nat} (h : Hex c m) (h' : Hex c n) : m = n := by
  unfold Hex at h h'; omega

theorem uesc_inj {e e' : Bytes} {r r' : Nat} {t t' : Bytes} (h : UEsc e r) (h' : UEsc e' r') (he : e ++ t = e' ++ t') : e = e' ∧ r = r' ∧ t = t' := by
  obtain ⟨a, b, c, d, x3, x2, x1, x0, rfl, h3, h2, h1, h0, rfl⟩ := h
  obtain ⟨a', b', c', d', y3, y2, y1, y0, rfl, g3, g2, g1, g0, rfl⟩ := h'
  simp only [List.cons_append, List.nil_append, List.cons.injEq, true_and] at he
  obtain ⟨rfl, rfl, rfl, rfl, rfl⟩ := he
  rw [hex_inj h3 g3, hex_inj h2 g2, hex_inj h1 g1, hex_inj h0 g0]
  exact ⟨rfl, rfl, rfl⟩

theorem uesc_head {e : Bytes} {r : Nat} (h : UEsc e r) : ∃ u, e = 0x5C :: 0x75 :: u := by
  obtain ⟨a, b, c, d, _, _, _, _, rfl, _⟩ := h
  exact ⟨_, rfl⟩

theorem escChar_inj {c b b' : UInt8} (h : EscChar c b) (h' : EscChar c b') : b = b' := by
  unfold EscChar at h h'
  rcases h with ⟨rfl, rfl⟩ | ⟨rfl, rfl⟩ | ⟨rfl, rfl⟩ | ⟨rfl, rfl⟩ | ⟨rfl, rfl⟩ | ⟨rfl, rfl⟩ | ⟨rfl, rfl⟩ | ⟨rfl, rfl⟩ <;> simp_all

theorem escChar_ne_u {b : UInt8} : ¬ EscChar 0x75 b := by unfold EscChar; simp

/-- a character that may stand in a string starts with neither a quote nor a backslash -/
theorem char_head {r : Nat} (hr : Scalar r) (h1 : r ≠ 0x22) (h2 : r ≠ 0x5C) (u : Bytes) (c : UInt8) (hc : c = 0x22 ∨ c = 0x5C) (v : Bytes) : utf8 r ++ u ≠ c :: v := by
  intro he
  cases hu : utf8 r with
  | nil => exact utf8_ne_nil r hu
  | cons x xs =>
    rw [hu] at he
    simp only [List.cons_append, List.cons.injEq] at he
    have hm : c ∈ utf8 r := by rw [hu, he.1]; simp
    have := utf8_ascii_mem hr (by rcases hc with rfl | rfl <;> decide) hm
    rcases hc with rfl | rfl
    · exact h1 this
    · exact h2 this

theorem strBody_unique {b d : Bytes} (h : StrBody b d) : ∀ {b' d' r r' : Bytes}, StrBody b' d' → b ++ 0x22 :: r = b' ++ 0x22 :: r' → b = b' ∧ d = d' := by
  induction h with
  | nil =>
    intro b' d' r r' h' he
    cases h' with
    | nil => exact ⟨rfl, rfl⟩
    | char q t d hq _ hq1 hq2 _ => exact absurd (by simpa using he.symm) (char_head hq hq1 hq2 (t ++ 0x22 :: r') 0x22 (.inl rfl) r)
    | esc => simp at he
    | uni e q t d hu _ _ => obtain ⟨u, rfl⟩ := uesc_head hu; simp at he
    | pair e1 e2 hi lo t d hu _ _ _ _ _ _ => obtain ⟨u, rfl⟩ := uesc_head hu; simp at he
  | char p t d hp _ hp1 hp2 _ ih =>
    intro b' d' r r' h' he
    cases h' with
    | nil => exact absurd (by simpa using he) (char_head hp hp1 hp2 (t ++ 0x22 :: r) 0x22 (.inl rfl) r')
    | char q t' d' hq _ hq1 hq2 h' =>
      obtain ⟨rfl, hu⟩ := utf8_prefix_inj hp hq (u := t ++ 0x22 :: r) (u' := t' ++ 0x22 :: r') (by simpa using he)
      obtain ⟨rfl, rfl⟩ := ih h' hu
      exact ⟨rfl, rfl⟩
    | esc c b t' d' _ _ => exact absurd (by simpa using he) (char_head hp hp1 hp2 (t ++ 0x22 :: r) 0x5C (.inr rfl) (c :: t' ++ 0x22 :: r'))
    | uni e q t' d' hu _ _ =>
      obtain ⟨u, rfl⟩ := uesc_head hu
      exact absurd (by simpa using he) (char_head hp hp1 hp2 (t ++ 0x22 :: r) 0x5C (.inr rfl) (0x75 :: u ++ t' ++ 0x22 :: r'))
    | pair e1 e2 hi lo t' d' hu _ _ _ _ _ _ =>
      obtain ⟨u, rfl⟩ := uesc_head hu
      exact absurd (by simpa using he) (char_head hp hp1 hp2 (t ++ 0x22 :: r) 0x5C (.inr rfl) (0x75 :: u ++ e2 ++ t' ++ 0x22 :: r'))
  | esc c b t d hc _ ih =>
    intro b' d' r r' h' he
    cases h' with
    | nil => simp at he
    | char q t' d' hq _ hq1 hq2 h' => exact absurd (by simpa using he.symm) (char_head hq hq1 hq2 (t' ++ 0x22 :: r') 0x5C (.inr rfl) (c :: t ++ 0x22 :: r))
    | esc c' b' t' d' hc' h' =>
      simp only [List.cons_append, List.cons.injEq, true_and] at he
      obtain ⟨rfl, he⟩ := he
      obtain ⟨rfl, rfl⟩ := ih h' he
      rw [escChar_inj hc hc']
      exact ⟨rfl, rfl⟩
    | uni e q t' d' hu _ _ =>
      obtain ⟨u, rfl⟩ := uesc_head hu
      simp only [List.cons_append, List.cons.injEq, true_and] at he
      rw [he.1] at hc; exact absurd hc escChar_ne_u
    | pair e1 e2 hi lo t' d' hu _ _ _ _ _ _ =>
      obtain ⟨u, rfl⟩ := uesc_head hu
      simp only [List.cons_append, List.cons.injEq, true_and] at he
      rw [he.1] at hc; exact absurd hc escChar_ne_u
  | uni e p t d hu hp _ ih =>
    intro b' d' r r' h' he
    cases h' with
    | nil => obtain ⟨u, rfl⟩ := uesc_head hu; simp at he
    | char q t' d' hq _ hq1 hq2 h' =>
      obtain ⟨u, rfl⟩ := uesc_head hu
      exact absurd (by simpa using he.symm) (char_head hq hq1 hq2 (t' ++ 0x22 :: r') 0x5C (.inr rfl) (0x75 :: u ++ t ++ 0x22 :: r))
    | esc c b t' d' hc _ =>
      obtain ⟨u, rfl⟩ := uesc_head hu
      simp only [List.cons_append, List.cons.injEq, true_and] at he
      rw [← he.1] at hc; exact absurd hc escChar_ne_u
    | uni e' q t' d' hu' _ h' =>
      obtain ⟨rfl, rfl, he⟩ := uesc_inj hu hu' (t := t ++ 0x22 :: r) (t' := t' ++ 0x22 :: r') (by simpa using he)
      obtain ⟨rfl, rfl⟩ := ih h' he
      exact ⟨rfl, rfl⟩
    | pair e1 e2 hi lo t' d' hu' _ h1 h2 _ _ _ =>
      obtain ⟨_, rfl, _⟩ := uesc_inj hu hu' (t := t ++ 0x22 :: r) (t' := e2 ++ t' ++ 0x22 :: r') (by simpa using he)
      unfold Scalar at hp; omega
  | pair e1 e2 hi lo t d hu hl h1 h2 h3 h4 _ ih =>
    intro b' d' r r' h' he
    cases h' with
    | nil => obtain ⟨u, rfl⟩ := uesc_head hu; simp at he
    | char q t' d' hq _ hq1 hq2 h' =>
      obtain ⟨u, rfl⟩ := uesc_head hu
      exact absurd (by simpa using he.symm) (char_head hq hq1 hq2 (t' ++ 0x22 :: r') 0x5C (.inr rfl) (0x75 :: u ++ e2 ++ t ++ 0x22 :: r))
    | esc c b t' d' hc _ =>
      obtain ⟨u, rfl⟩ := uesc_head hu
      simp only [List.cons_append, List.cons.injEq, true_and] at he
      rw [← he.1] at hc; exact absurd hc escChar_ne_u
    | uni e' q t' d' hu' hq h' =>
      obtain ⟨_, rfl, _⟩ := uesc_inj hu hu' (t := e2 ++ t ++ 0x22 :: r) (t' := t' ++ 0x22 :: r') (by simpa using he)
      unfold Scalar at hq; omega
    | pair e1' e2' hi' lo' t' d' hu' hl' _ _ _ _ h' =>
      obtain ⟨rfl, rfl, he⟩ := uesc_inj hu hu' (t := e2 ++ t ++ 0x22 :: r) (t' := e2' ++ t' ++ 0x22 :: r') (by simpa using he)
      obtain ⟨rfl, rfl, he⟩ := uesc_inj hl hl' (t := t ++ 0x22 :: r) (t' := t' ++ 0x22 :: r') (by simpa using he)
      obtain ⟨rfl, rfl⟩ := ih h' he
      exact ⟨rfl, rfl⟩

theorem jstr_unique {t d t' d' r r' : Bytes} (h : JStr t d) (h' : JStr t' d') (he : t ++ r = t' ++ r') : t = t' ∧ d = d' := by
  obtain ⟨b, rfl, hb⟩ := h
  obtain ⟨b', rfl, hb'⟩ := h'
  obtain ⟨rfl, rfl⟩ := strBody_unique hb (r := r) (r' := r') hb' (by simpa using he)
  exact ⟨rfl, rfl⟩

/-! numbers -/

theorem jnum_shape {t : Bytes} (h : JNum t) : (∃ c u, t = c :: u ∧ (Digit c ∨ c = 0x2D)) ∧ ∀ c ∈ t, NumChar c := by
  have hd : ∀ {ds : Bytes}, Digits ds → ∀ c ∈ ds, NumChar c := fun h c hc => Or.inl (h c hc)
  have hsg : ∀ neg c, c ∈ sign neg → NumChar c := fun neg c hc => by
    cases neg <;> simp [sign] at hc
    subst hc; unfold NumChar Digit; decide
  have hhead : ∀ (neg : Bool) (ip rest : Bytes), IntPart ip → ∃ c u, sign neg ++ ip ++ rest = c :: u ∧ (Digit c ∨ c = 0x2D) := fun neg ip rest hi => by
    cases neg with
    | true => exact ⟨0x2D, ip ++ rest, rfl, .inr rfl⟩
    | false =>
      have := intPart_digits hi
      cases ip with
      | nil => exact absurd rfl this.2.1
      | cons c u => exact ⟨c, u ++ rest, by simp [sign], .inl (this.1 c (by simp))⟩
  rcases h with ⟨neg, ip, hi, rfl⟩ | ⟨neg, ip, fp, ep, hi, hf, hx, _, rfl⟩
  · refine ⟨by simpa using hhead neg ip [] hi, fun c hc => ?_⟩
    rcases List.mem_append.1 hc with hc | hc
    · exact hsg neg c hc
    · exact hd (intPart_digits hi).1 c hc
  · refine ⟨by simpa using hhead neg ip (fp ++ ep) hi, fun c hc => ?_⟩
    rcases List.mem_append.1 hc with hc | hc
    · rcases List.mem_append.1 hc with hc | hc
      · rcases List.mem_append.1 hc with hc | hc
        · exact hsg neg c hc
        · exact hd (intPart_digits hi).1 c hc
      · rcases hf with rfl | ⟨ds, rfl, _, h⟩
        · simp at hc
        · rcases List.mem_cons.1 hc with rfl | hc
          · unfold NumChar Digit; decide
          · exact hd h c hc
    · rcases hx with rfl | ⟨e, sg, ds, rfl, he, hs, _, h⟩
      · simp at hc
      · rcases List.mem_append.1 hc with hc | hc
        · rcases List.mem_cons.1 hc with rfl | hc
          · rcases he with rfl | rfl <;> (unfold NumChar Digit; decide)
          · rcases hs with rfl | rfl | rfl <;> simp at hc
            · subst hc; unfold NumChar Digit; decide
            · subst hc; unfold NumChar Digit; decide
        · exact hd h c hc

theorem munch {P : UInt8 → Prop} : ∀ {t t' r r' : Bytes}, (∀ c ∈ t, P c) → (∀ c ∈ t', P c) → (∀ c u, r = c :: u → ¬ P c) → (∀ c u, r' = c :: u → ¬ P c) →
    t ++ r = t' ++ r' → t = t' ∧ r = r'
  | [], [], _, _, _, _, _, _, he => ⟨rfl, he⟩
  | [], c :: t', r, r', _, h', hr, _, he => absurd (h' c (by simp)) (hr c (t' ++ r') (by simpa using he))
  | c :: t, [], r, r', h, _, _, hr', he => absurd (h c (by simp)) (hr' c (t ++ r) (by simpa using he.symm))
  | c :: t, c' :: t', r, r', h, h', hr, hr', he => by
    simp only [List.cons_append, List.cons.injEq] at he
    obtain ⟨rfl, he⟩ := he
    obtain ⟨rfl, rfl⟩ := munch (fun c hc => h c (by simp [hc])) (fun c hc => h' c (by simp [hc])) hr hr' he
    exact ⟨rfl, rfl⟩

/-- white space -/
def WsCh (c : UInt8) : Prop := c = 0x20 ∨ c = 0x09 ∨ c = 0x0A ∨ c = 0x0D

/-- something other than white space comes first -/
def Solid1 (r : Bytes) : Prop := ∃ c u, r = c :: u ∧ ¬ WsCh c

theorem ws_split {w w' x x' : Bytes} (h : Ws w) (h' : Ws w') (hx : Solid1 x) (hx' : Solid1 x') (he : w ++ x = w' ++ x') : w = w' ∧ x = x' := by
  refine munch (P := WsCh) h h' ?_ ?_ he
  · obtain ⟨c, u, rfl, hc⟩ := hx
    intro c' u' h; cases h; exact hc
  · obtain ⟨c, u, rfl, hc⟩ := hx'
    intro c' u' h; cases h; exact hc

theorem solid_cons {c : UInt8} (h : ¬ WsCh c) (u : Bytes) : Solid1 (c :: u) := ⟨c, u, rfl, h⟩

theorem numEnd_nil : NumEnd [] := fun c t h => by cases h

theorem numEnd_wsOnly {w : Bytes} (h : Ws w) : NumEnd w := by
  intro c t he
  subst he
  have := h c (by simp)
  unfold NumChar Digit
  rcases this with rfl | rfl | rfl | rfl <;> decide

/-- the first character of a value tells its kind -/
def HeadOf (c : UInt8) : J → Prop
  | .null => c = 0x6E
  | .bool b => c = if b then 0x74 else 0x66
  | .num _ => Digit c ∨ c = 0x2D
  | .str _ => c = 0x22
  | .arr _ => c = 0x5B
  | .obj _ => c = 0x7B

theorem jval_head {t : Bytes} {j : J} (h : JVal t j) : ∃ c u, t = c :: u ∧ HeadOf c j := by
  cases h with
  | null => exact ⟨_, _, rfl, rfl⟩
  | tru => exact ⟨_, _, rfl, rfl⟩
  | fls => exact ⟨_, _, rfl, rfl⟩
  | num t h => obtain ⟨c, u, rfl, hc⟩ := (jnum_shape h).1; exact ⟨c, u, rfl, hc⟩
  | str t d h => obtain ⟨b, rfl, _⟩ := h; exact ⟨_, _, rfl, rfl⟩
  | arrNil w => exact ⟨_, _, rfl, rfl⟩
  | arr t xs => exact ⟨_, _, rfl, rfl⟩
  | objNil w => exact ⟨_, _, rfl, rfl⟩
  | obj t xs => exact ⟨_, _, rfl, rfl⟩

theorem head_notWs {c : UInt8} {j : J} (h : HeadOf c j) : ¬ WsCh c ∧ c ≠ 0x5D ∧ c ≠ 0x7D := by
  unfold HeadOf at h
  have hdig : Digit c ∨ c = 0x2D → ¬ WsCh c ∧ c ≠ 0x5D ∧ c ≠ 0x7D := fun h => by
    unfold WsCh
    rcases h with h | rfl
    · unfold Digit at h
      refine ⟨?_, ?_, ?_⟩
      · rintro (rfl | rfl | rfl | rfl) <;> revert h <;> decide
      · rintro rfl; revert h; decide
      · rintro rfl; revert h; decide
    · decide
  unfold WsCh
  cases j with
  | null => subst h; decide
  | bool b => cases b <;> (subst h; decide)
  | num t => exact hdig h
  | str s => subst h; decide
  | arr xs => subst h; decide
  | obj ms => subst h; decide

theorem jval_solid {t : Bytes} {j : J} (h : JVal t j) (r : Bytes) : Solid1 (t ++ r) := by
  obtain ⟨c, u, rfl, hc⟩ := jval_head h
  exact ⟨c, u ++ r, rfl, (head_notWs hc).1⟩

theorem jstr_solid {t d : Bytes} (h : JStr t d) (r : Bytes) : Solid1 (t ++ r) := by
  obtain ⟨b, rfl, _⟩ := h
  exact ⟨0x22, b ++ [0x22] ++ r, by simp, by unfold WsCh; decide⟩

/-- values of the same first character are of the same kind -/
theorem head_kind {c : UInt8} {j j' : J} (h : HeadOf c j) (h' : HeadOf c j') : match j, j' with
    | .null, .null => True | .bool b, .bool b' => b = b' | .num _, .num _ => True | .str _, .str _ => True | .arr _, .arr _ => True | .obj _, .obj _ => True | _, _ => False := by
  have hno : ∀ c : UInt8, (Digit c ∨ c = 0x2D) → c ≠ 0x6E ∧ c ≠ 0x74 ∧ c ≠ 0x66 ∧ c ≠ 0x22 ∧ c ≠ 0x5B ∧ c ≠ 0x7B := fun c h => by
    rcases h with h | rfl
    · unfold Digit at h
      refine ⟨?_, ?_, ?_, ?_, ?_, ?_⟩ <;> (rintro rfl; revert h; decide)
    · decide
  cases j <;> cases j' <;> simp only [HeadOf] at h h' ⊢
  all_goals first
    | trivial
    | (rename_i b b'; cases b <;> cases b' <;> simp_all; done)
    | (have := hno c h; grind)
    | (have := hno c h'; grind)
    | grind

/-! values -/

/-- the elements of an array, or none, between the brackets -/
def InArr (t : Bytes) (xs : List J) : Prop := (Ws t ∧ xs = []) ∨ JElems t xs
def InObj (t : Bytes) (ms : List Mem) : Prop := (Ws t ∧ ms = []) ∨ JMems t ms

theorem jval_arr {t : Bytes} {xs : List J} (h : JVal t (.arr xs)) : ∃ u, t = 0x5B :: u ++ [0x5D] ∧ InArr u xs := by
  cases h with
  | arrNil w hw => exact ⟨w, rfl, .inl ⟨hw, rfl⟩⟩
  | arr u xs hu => exact ⟨u, rfl, .inr hu⟩

theorem jval_obj {t : Bytes} {ms : List Mem} (h : JVal t (.obj ms)) : ∃ u, t = 0x7B :: u ++ [0x7D] ∧ InObj u ms := by
  cases h with
  | objNil w hw => exact ⟨w, rfl, .inl ⟨hw, rfl⟩⟩
  | obj u xs hu => exact ⟨u, rfl, .inr hu⟩

theorem jelems_head {t : Bytes} {xs : List J} (h : JElems t xs) : ∃ w c u, t = w ++ c :: u ∧ Ws w ∧ ¬ WsCh c ∧ c ≠ 0x5D := by
  cases h with
  | one w1 t w2 v h1 h2 _ =>
    obtain ⟨c, u, rfl, hc⟩ := jval_head h2
    exact ⟨w1, c, u ++ w2, by simp, h1, (head_notWs hc).1, (head_notWs hc).2.1⟩
  | cons w1 t w2 ts v vs h1 h2 _ _ =>
    obtain ⟨c, u, rfl, hc⟩ := jval_head h2
    exact ⟨w1, c, u ++ w2 ++ 0x2C :: ts, by simp, h1, (head_notWs hc).1, (head_notWs hc).2.1⟩

theorem jmems_head {t : Bytes} {xs : List Mem} (h : JMems t xs) : ∃ w u, t = w ++ 0x22 :: u ∧ Ws w := by
  cases h with
  | one w1 k w2 w3 t w4 d v h1 h2 =>
    obtain ⟨b, rfl, _⟩ := h2
    exact ⟨w1, _, by simp; rfl, h1⟩
  | cons w1 k w2 w3 t w4 d ts v vs h1 h2 =>
    obtain ⟨b, rfl, _⟩ := h2
    exact ⟨w1, _, by simp; rfl, h1⟩

theorem ws_not_elems {w t r r' : Bytes} {xs : List J} (hw : Ws w) (h : JElems t xs) : w ++ 0x5D :: r ≠ t ++ 0x5D :: r' := by
  obtain ⟨w', c, u, rfl, h1, h2, h3⟩ := jelems_head h
  intro he
  have := ws_split hw h1 (solid_cons (c := 0x5D) (by unfold WsCh; decide) r) (solid_cons h2 (u ++ 0x5D :: r')) (by simpa using he)
  exact h3 (by simpa using this.2.symm |> fun h => (List.cons.inj h).1)

theorem ws_not_mems {w t r r' : Bytes} {xs : List Mem} (hw : Ws w) (h : JMems t xs) : w ++ 0x7D :: r ≠ t ++ 0x7D :: r' := by
  obtain ⟨w', u, rfl, h1⟩ := jmems_head h
  intro he
  have := ws_split hw h1 (solid_cons (c := 0x7D) (by unfold WsCh; decide) r) (solid_cons (c := 0x22) (by unfold WsCh; decide) (u ++ 0x7D :: r')) (by simpa using he)
  exact absurd (List.cons.inj this.2).1 (by decide)

theorem notWs : ¬ WsCh 0x5D ∧ ¬ WsCh 0x7D ∧ ¬ WsCh 0x2C ∧ ¬ WsCh 0x3A := by unfold WsCh; decide

theorem jval_unique {t : Bytes} {j : J} (h : JVal t j) : ∀ (t' : Bytes) (j' : J) (r r' : Bytes), JVal t' j' → NumEnd r → NumEnd r' → t ++ r = t' ++ r' → t = t' ∧ j = j' := by
  refine @JVal.rec (fun t j _ => ∀ (t' : Bytes) (j' : J) (r r' : Bytes), JVal t' j' → NumEnd r → NumEnd r' → t ++ r = t' ++ r' → t = t' ∧ j = j')
    (fun t xs _ => ∀ (t' : Bytes) (xs' : List J) (r r' : Bytes), JElems t' xs' → t ++ 0x5D :: r = t' ++ 0x5D :: r' → t = t' ∧ xs = xs')
    (fun t ms _ => ∀ (t' : Bytes) (ms' : List Mem) (r r' : Bytes), JMems t' ms' → t ++ 0x7D :: r = t' ++ 0x7D :: r' → t = t' ∧ ms = ms')
    ?null ?tru ?fls ?num ?str ?arrNil ?arr ?objNil ?obj ?eone ?econs ?mone ?mcons t j h
  case null =>
    intro t' j' r r' h' _ _ he
    obtain ⟨c, u, rfl, hc⟩ := jval_head h'
    simp only [List.cons_append, List.cons.injEq] at he
    have hk := head_kind (j := .null) (j' := j') (c := c) he.1.symm hc
    cases j' <;> simp only at hk
    cases h'; exact ⟨rfl, rfl⟩
  case tru =>
    intro t' j' r r' h' _ _ he
    obtain ⟨c, u, rfl, hc⟩ := jval_head h'
    simp only [List.cons_append, List.cons.injEq] at he
    have hk := head_kind (j := .bool true) (j' := j') (c := c) he.1.symm hc
    cases j' <;> simp only at hk
    subst hk
    cases h'; exact ⟨rfl, rfl⟩
  case fls =>
    intro t' j' r r' h' _ _ he
    obtain ⟨c, u, rfl, hc⟩ := jval_head h'
    simp only [List.cons_append, List.cons.injEq] at he
    have hk := head_kind (j := .bool false) (j' := j') (c := c) he.1.symm hc
    cases j' <;> simp only at hk
    subst hk
    cases h'; exact ⟨rfl, rfl⟩
  case num =>
    intro t ht t' j' r r' h' hr hr' he
    obtain ⟨⟨d, v, rfl, hd⟩, hall⟩ := jnum_shape ht
    obtain ⟨c, u, rfl, hc⟩ := jval_head h'
    have hdc : d = c := by simp only [List.cons_append, List.cons.injEq] at he; exact he.1
    subst hdc
    have hk := head_kind (j := .num (d :: v)) (j' := j') (c := d) hd hc
    cases j' <;> simp only at hk
    cases h' with
    | num _ h' =>
      have := munch (P := NumChar) hall (jnum_shape h').2 hr hr' he
      rw [this.1]; exact ⟨rfl, rfl⟩
  case str =>
    intro t d ht t' j' r r' h' _ _ he
    have ht0 := ht
    obtain ⟨b, rfl, hb⟩ := ht
    obtain ⟨c, u, rfl, hc⟩ := jval_head h'
    have hdc : 0x22 = c := by simp only [List.cons_append, List.cons.injEq] at he; exact he.1
    have hk := head_kind (j := .str d) (j' := j') (c := c) hdc.symm hc
    cases j' <;> simp only at hk
    cases h' with
    | str _ _ h' =>
      obtain ⟨h1, rfl⟩ := jstr_unique ht0 h' he
      exact ⟨h1, rfl⟩
  case arrNil =>
    intro w hw t' j' r r' h' _ _ he
    obtain ⟨c, u, rfl, hc⟩ := jval_head h'
    have hdc : 0x5B = c := by simp only [List.cons_append, List.cons.injEq] at he; exact he.1
    have hk := head_kind (j := .arr []) (j' := j') (c := c) hdc.symm hc
    cases j' <;> simp only at hk
    obtain ⟨u', hu', hi⟩ := jval_arr h'
    rw [hu'] at he ⊢
    have he : w ++ 0x5D :: r = u' ++ 0x5D :: r' := by simpa using he
    rcases hi with ⟨hw', rfl⟩ | hi
    · have := ws_split hw hw' (solid_cons notWs.1 r) (solid_cons notWs.1 r') he
      rw [this.1]; exact ⟨rfl, rfl⟩
    · exact absurd he (ws_not_elems hw hi)
  case arr =>
    intro t xs ht ih t' j' r r' h' _ _ he
    obtain ⟨c, u, rfl, hc⟩ := jval_head h'
    have hdc : 0x5B = c := by simp only [List.cons_append, List.cons.injEq] at he; exact he.1
    have hk := head_kind (j := .arr []) (j' := j') (c := c) hdc.symm hc
    cases j' <;> simp only at hk
    obtain ⟨u', hu', hi⟩ := jval_arr h'
    rw [hu'] at he ⊢
    have he : t ++ 0x5D :: r = u' ++ 0x5D :: r' := by simpa using he
    rcases hi with ⟨hw', rfl⟩ | hi
    · exact absurd he.symm (ws_not_elems hw' ht)
    · obtain ⟨rfl, rfl⟩ := ih _ _ r r' hi he
      exact ⟨rfl, rfl⟩
  case objNil =>
    intro w hw t' j' r r' h' _ _ he
    obtain ⟨c, u, rfl, hc⟩ := jval_head h'
    have hdc : 0x7B = c := by simp only [List.cons_append, List.cons.injEq] at he; exact he.1
    have hk := head_kind (j := .obj []) (j' := j') (c := c) hdc.symm hc
    cases j' <;> simp only at hk
    obtain ⟨u', hu', hi⟩ := jval_obj h'
    rw [hu'] at he ⊢
    have he : w ++ 0x7D :: r = u' ++ 0x7D :: r' := by simpa using he
    rcases hi with ⟨hw', rfl⟩ | hi
    · have := ws_split hw hw' (solid_cons notWs.2.1 r) (solid_cons notWs.2.1 r') he
      rw [this.1]; exact ⟨rfl, rfl⟩
    · exact absurd he (ws_not_mems hw hi)
  case obj =>
    intro t xs ht ih t' j' r r' h' _ _ he
    obtain ⟨c, u, rfl, hc⟩ := jval_head h'
    have hdc : 0x7B = c := by simp only [List.cons_append, List.cons.injEq] at he; exact he.1
    have hk := head_kind (j := .obj []) (j' := j') (c := c) hdc.symm hc
    cases j' <;> simp only at hk
    obtain ⟨u', hu', hi⟩ := jval_obj h'
    rw [hu'] at he ⊢
    have he : t ++ 0x7D :: r = u' ++ 0x7D :: r' := by simpa using he
    rcases hi with ⟨hw', rfl⟩ | hi
    · exact absurd he.symm (ws_not_mems hw' ht)
    · obtain ⟨rfl, rfl⟩ := ih _ _ r r' hi he
      exact ⟨rfl, rfl⟩
  case eone =>
    intro w1 t w2 v h1 ht h2 ih t' xs' r r' h' he
    cases h' with
    | one w1' t' w2' v' h1' ht' h2' =>
      replace he := ws_split h1 h1' (jval_solid ht (w2 ++ 0x5D :: r)) (jval_solid ht' (w2' ++ 0x5D :: r')) (by simpa using he)
      obtain ⟨rfl, he⟩ := he
      obtain ⟨rfl, rfl⟩ := ih _ _ _ _ ht' (NumEnd_ws h2 _ notNumChar.1 r) (NumEnd_ws h2' _ notNumChar.1 r') he
      obtain ⟨rfl, _⟩ := ws_split h2 h2' (solid_cons notWs.1 r) (solid_cons notWs.1 r') (List.append_cancel_left he)
      exact ⟨rfl, rfl⟩
    | cons w1' t' w2' ts' v' vs' h1' ht' h2' _ =>
      replace he := ws_split h1 h1' (jval_solid ht (w2 ++ 0x5D :: r)) (jval_solid ht' (w2' ++ 0x2C :: ts' ++ 0x5D :: r')) (by simpa using he)
      obtain ⟨rfl, he⟩ := he
      obtain ⟨rfl, rfl⟩ := ih _ _ _ _ ht' (NumEnd_ws h2 _ notNumChar.1 r) (by simpa using NumEnd_ws h2' _ notNumChar.2.2 (ts' ++ 0x5D :: r')) he
      have := ws_split h2 h2' (solid_cons notWs.1 r) (solid_cons notWs.2.2.1 (ts' ++ 0x5D :: r')) (by simpa using he)
      exact absurd (List.cons.inj this.2).1 (by decide)
  case econs =>
    intro w1 t w2 ts v vs h1 ht h2 _ ih ihs t' xs' r r' h' he
    cases h' with
    | one w1' t' w2' v' h1' ht' h2' =>
      replace he := ws_split h1 h1' (jval_solid ht (w2 ++ 0x2C :: ts ++ 0x5D :: r)) (jval_solid ht' (w2' ++ 0x5D :: r')) (by simpa using he)
      obtain ⟨rfl, he⟩ := he
      obtain ⟨rfl, rfl⟩ := ih _ _ _ _ ht' (by simpa using NumEnd_ws h2 _ notNumChar.2.2 (ts ++ 0x5D :: r)) (NumEnd_ws h2' _ notNumChar.1 r') he
      have := ws_split h2 h2' (solid_cons notWs.2.2.1 (ts ++ 0x5D :: r)) (solid_cons notWs.1 r') (by simpa using he)
      exact absurd (List.cons.inj this.2).1 (by decide)
    | cons w1' t' w2' ts' v' vs' h1' ht' h2' hs' =>
      replace he := ws_split h1 h1' (jval_solid ht (w2 ++ 0x2C :: ts ++ 0x5D :: r)) (jval_solid ht' (w2' ++ 0x2C :: ts' ++ 0x5D :: r')) (by simpa using he)
      obtain ⟨rfl, he⟩ := he
      obtain ⟨rfl, rfl⟩ := ih _ _ _ _ ht' (by simpa using NumEnd_ws h2 _ notNumChar.2.2 (ts ++ 0x5D :: r)) (by simpa using NumEnd_ws h2' _ notNumChar.2.2 (ts' ++ 0x5D :: r')) he
      replace he := ws_split h2 h2' (solid_cons notWs.2.2.1 (ts ++ 0x5D :: r)) (solid_cons notWs.2.2.1 (ts' ++ 0x5D :: r')) (by simpa using he)
      obtain ⟨rfl, he⟩ := he
      obtain ⟨rfl, rfl⟩ := ihs _ _ r r' hs' (List.cons.inj he).2
      exact ⟨rfl, rfl⟩
  case mone =>
    intro w1 k w2 w3 t w4 d v h1 hk h2 h3 ht h4 ih t' xs' r r' h' he
    cases h' with
    | one w1' k' w2' w3' t' w4' d' v' h1' hk' h2' h3' ht' h4' =>
      replace he := ws_split h1 h1' (jstr_solid hk (w2 ++ 0x3A :: (w3 ++ t ++ w4 ++ 0x7D :: r))) (jstr_solid hk' (w2' ++ 0x3A :: (w3' ++ t' ++ w4' ++ 0x7D :: r'))) (by simpa using he)
      obtain ⟨rfl, he⟩ := he
      obtain ⟨rfl, rfl⟩ := jstr_unique hk hk' he
      replace he := ws_split h2 h2' (solid_cons notWs.2.2.2 _) (solid_cons notWs.2.2.2 _) (List.append_cancel_left he)
      obtain ⟨rfl, he⟩ := he
      replace he := ws_split h3 h3' (jval_solid ht (w4 ++ 0x7D :: r)) (jval_solid ht' (w4' ++ 0x7D :: r')) (by simpa using (List.cons.inj he).2)
      obtain ⟨rfl, he⟩ := he
      obtain ⟨rfl, rfl⟩ := ih _ _ _ _ ht' (NumEnd_ws h4 _ notNumChar.2.1 r) (NumEnd_ws h4' _ notNumChar.2.1 r') he
      obtain ⟨rfl, _⟩ := ws_split h4 h4' (solid_cons notWs.2.1 r) (solid_cons notWs.2.1 r') (List.append_cancel_left he)
      exact ⟨rfl, rfl⟩
    | cons w1' k' w2' w3' t' w4' d' ts' v' vs' h1' hk' h2' h3' ht' h4' hs' =>
      replace he := ws_split h1 h1' (jstr_solid hk (w2 ++ 0x3A :: (w3 ++ t ++ w4 ++ 0x7D :: r))) (jstr_solid hk' (w2' ++ 0x3A :: (w3' ++ t' ++ w4' ++ 0x2C :: ts' ++ 0x7D :: r'))) (by simpa using he)
      obtain ⟨rfl, he⟩ := he
      obtain ⟨rfl, rfl⟩ := jstr_unique hk hk' he
      replace he := ws_split h2 h2' (solid_cons notWs.2.2.2 _) (solid_cons notWs.2.2.2 _) (List.append_cancel_left he)
      obtain ⟨rfl, he⟩ := he
      replace he := ws_split h3 h3' (jval_solid ht (w4 ++ 0x7D :: r)) (jval_solid ht' (w4' ++ 0x2C :: ts' ++ 0x7D :: r')) (by simpa using (List.cons.inj he).2)
      obtain ⟨rfl, he⟩ := he
      obtain ⟨rfl, rfl⟩ := ih _ _ _ _ ht' (NumEnd_ws h4 _ notNumChar.2.1 r) (by simpa using NumEnd_ws h4' _ notNumChar.2.2 (ts' ++ 0x7D :: r')) he
      have := ws_split h4 h4' (solid_cons notWs.2.1 r) (solid_cons notWs.2.2.1 (ts' ++ 0x7D :: r')) (by simpa using he)
      exact absurd (List.cons.inj this.2).1 (by decide)
  case mcons =>
    intro w1 k w2 w3 t w4 d ts v vs h1 hk h2 h3 ht h4 _ ih ihs t' xs' r r' h' he
    cases h' with
    | one w1' k' w2' w3' t' w4' d' v' h1' hk' h2' h3' ht' h4' =>
      replace he := ws_split h1 h1' (jstr_solid hk (w2 ++ 0x3A :: (w3 ++ t ++ w4 ++ 0x2C :: ts ++ 0x7D :: r))) (jstr_solid hk' (w2' ++ 0x3A :: (w3' ++ t' ++ w4' ++ 0x7D :: r'))) (by simpa using he)
      obtain ⟨rfl, he⟩ := he
      obtain ⟨rfl, rfl⟩ := jstr_unique hk hk' he
      replace he := ws_split h2 h2' (solid_cons notWs.2.2.2 _) (solid_cons notWs.2.2.2 _) (List.append_cancel_left he)
      obtain ⟨rfl, he⟩ := he
      replace he := ws_split h3 h3' (jval_solid ht (w4 ++ 0x2C :: ts ++ 0x7D :: r)) (jval_solid ht' (w4' ++ 0x7D :: r')) (by simpa using (List.cons.inj he).2)
      obtain ⟨rfl, he⟩ := he
      obtain ⟨rfl, rfl⟩ := ih _ _ _ _ ht' (by simpa using NumEnd_ws h4 _ notNumChar.2.2 (ts ++ 0x7D :: r)) (NumEnd_ws h4' _ notNumChar.2.1 r') he
      have := ws_split h4 h4' (solid_cons notWs.2.2.1 (ts ++ 0x7D :: r)) (solid_cons notWs.2.1 r') (by simpa using he)
      exact absurd (List.cons.inj this.2).1 (by decide)
    | cons w1' k' w2' w3' t' w4' d' ts' v' vs' h1' hk' h2' h3' ht' h4' hs' =>
      replace he := ws_split h1 h1' (jstr_solid hk (w2 ++ 0x3A :: (w3 ++ t ++ w4 ++ 0x2C :: ts ++ 0x7D :: r))) (jstr_solid hk' (w2' ++ 0x3A :: (w3' ++ t' ++ w4' ++ 0x2C :: ts' ++ 0x7D :: r'))) (by simpa using he)
      obtain ⟨rfl, he⟩ := he
      obtain ⟨rfl, rfl⟩ := jstr_unique hk hk' he
      replace he := ws_split h2 h2' (solid_cons notWs.2.2.2 _) (solid_cons notWs.2.2.2 _) (List.append_cancel_left he)
      obtain ⟨rfl, he⟩ := he
      replace he := ws_split h3 h3' (jval_solid ht (w4 ++ 0x2C :: ts ++ 0x7D :: r)) (jval_solid ht' (w4' ++ 0x2C :: ts' ++ 0x7D :: r')) (by simpa using (List.cons.inj he).2)
      obtain ⟨rfl, he⟩ := he
      obtain ⟨rfl, rfl⟩ := ih _ _ _ _ ht' (by simpa using NumEnd_ws h4 _ notNumChar.2.2 (ts ++ 0x7D :: r)) (by simpa using NumEnd_ws h4' _ notNumChar.2.2 (ts' ++ 0x7D :: r')) he
      replace he := ws_split h4 h4' (solid_cons notWs.2.2.1 (ts ++ 0x7D :: r)) (solid_cons notWs.2.2.1 (ts' ++ 0x7D :: r')) (by simpa using he)
      obtain ⟨rfl, he⟩ := he
      obtain ⟨rfl, rfl⟩ := ihs _ _ r r' hs' (List.cons.inj he).2
      exact ⟨rfl, rfl⟩

/-- a text is at most one document -/
theorem jtext_unique {s : Bytes} {j j' : J} (h : JText s j) (h' : JText s j') : j = j' := by
  obtain ⟨w1, t, w2, rfl, h1, ht, h2⟩ := h
  obtain ⟨w1', t', w2', he, h1', ht', h2'⟩ := h'
  obtain ⟨_, he⟩ := ws_split h1 h1' (jval_solid ht w2) (jval_solid ht' w2') (by simpa using he)
  exact (jval_unique ht _ _ _ _ ht' (numEnd_wsOnly h2) (numEnd_wsOnly h2') he).2

end JV
