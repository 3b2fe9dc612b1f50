import Verif.Proofs.NumText
import Verif.Proofs.DecEq
/-!
C01-C06, C31 (parsing half) and C45 (unmarshalling half).
-/
namespace JV
open Spec

/-! ### sample standard library, used by the examples only -/

/-- A toy instance of the library parameters; it reads every float literal as 1.5. -/
def sampleEnv : Env where
  parseFloat := fun _ => some 0x3FF8000000000000#64
  f64ToI64 := fun _ => 1
  f64ToU64 := fun _ => 1
  i64ToF64 := fun i => i
  u64ToF64 := fun u => u
  toLower := fun s => s.map fun c => if 0x41 ≤ c ∧ c ≤ 0x5A then c + 0x20 else c
  fmtFloat := fun _ => [0x31, 0x2E, 0x35]
  jsonFloat := fun _ => [0x31, 0x2E, 0x35]
  decimal := fun _ => some (15, 1)
  trimSpace := fun s => s.filter (· ≠ 0x20)
  f64ToF32 := fun _ => 0x3FC00000#32

/-- bytes of an ASCII text, for examples -/
def asc (s : String) : Bytes := s.toList.map fun c => UInt8.ofNat c.toNat

/-! ### C01 -/

/-- `Unmarshal` on any bytes returns (no panic, no endless loop), leaves the caller's slice alone, and gives either a value and no error
or an error. The fuel of the model is never exhausted and every index and slice expression of the parser is in range, for all inputs. -/
theorem C01_unmarshal_total (E : Env) (b : Bytes) :
    ∃ v e, goUnmarshal E b = .ok (b, v, e) ∧ (e = none → v ≠ .nilp ∧ v ≠ .notExist) := by
  rcases goUnmarshal_cases E b with ⟨v, h1, h2⟩ | ⟨e, h1, h2⟩
  · exact ⟨v, none, h2, fun _ => unmarshal_exists h1⟩
  · exact ⟨_, some e, h2, by simp⟩

/-- the same for `UnmarshalNoCopy` -/
theorem C01_unmarshalNoCopy_total (E : Env) (b : Bytes) :
    ∃ x v e, goUnmarshalNoCopy E b = .ok (x, v, e) ∧ (e = none → v ≠ .nilp ∧ v ≠ .notExist) := by
  rcases goUnmarshalNoCopy_cases E b with ⟨v, it, h1, h2, -⟩ | ⟨e, x, h1, h2, -⟩
  · exact ⟨it, v, none, h2, fun _ => unmarshal_exists h1⟩
  · exact ⟨x, _, some e, h2, by simp⟩

/-- the same for `UnmarshalString` -/
theorem C01_unmarshalString_total (E : Env) (s : Bytes) :
    ∃ v e, goUnmarshalString E s = .ok (v, e) ∧ (e = none → v ≠ .nilp ∧ v ≠ .notExist) := by
  obtain ⟨x, v, e, h, h'⟩ := C01_unmarshalNoCopy_total E s
  exact ⟨v, e, by simp [goUnmarshalString, h], h'⟩

-- a truncated surrogate escape inside an unbalanced object: an error, not a panic
example (E : Env) : goUnmarshal E (asc "{\"a\":\"\\uD800\\u12") = .ok (asc "{\"a\":\"\\uD800\\u12", .notExist, some .other) := rfl
-- the model can express panics: indexing outside the buffer is one
example : rd (asc "ab") 2 = .panic := rfl

/-! ### C02 -/

/-- C02 as stated. -/
def C02_statement : Prop := ∀ (E : Env) (s : Bytes) (j : J), JText s j → j.AllNums (InRange E) →
  ∃ v, goUnmarshal E s = .ok (s, v, none) ∧ Denotes E (NumDenotes E) j v

/-- C02 for documents whose non-integer numbers do not run into the zero check of unmarshal.go:700-709 (`ZerosOK`: in the integer part
no digit 0 comes after digits whose value is a multiple of 2^64). What is missing is exactly the literals excluded by `ZerosOK`;
`C02_counterexample` shows that the code rejects them. -/
theorem C02_standard_json_partial (E : Env) (s : Bytes) (j : J) (h : JText s j)
    (hn : j.AllNums fun t => InRange E t ∧ ∀ neg ip, JFloat neg ip t → ZerosOK ip) :
    ∃ v, goUnmarshal E s = .ok (s, v, none) ∧ Denotes E (NumDenotes E) j v := by
  have hok : j.AllNums (NumOK E) := AllNums_mono (fun t ht => ⟨ht.1.1, fun neg ip hf => ⟨ht.1.2 neg ip hf, ht.2 neg ip hf⟩⟩) j hn
  refine ⟨toV E j, goUnmarshal_ok.2 ⟨rfl, (unmarshal_iff E s _).2 ⟨j, strict_text E h hok, rfl⟩⟩, ?_⟩
  exact toV_denotes E _ j (AllNums_mono (fun t ht => numDenotes ht) j hok)

/-- Non-integer literals with an integer part of at most 20 digits are never affected by the zero check. -/
theorem C02_zerosOK_short {ip : Bytes} (h : IntPart ip) (hl : ip.length ≤ 20) : ZerosOK ip :=
  zerosOK_of_lt (intPart_digits h).1 hl (intPart_digits h).2.2

/-- `184467440737095516160.5` -/
def zeroTrap : Bytes := asc "184467440737095516160.5"

theorem zeroTrap_float : JFloat false (asc "184467440737095516160") zeroTrap := by
  refine ⟨asc ".5", [], ?_, .inr ⟨asc "5", rfl, by decide, ?_⟩, .inl rfl, by decide, rfl⟩
  · refine .inr ⟨0x31, asc "84467440737095516160", rfl, by decide, by decide, ?_⟩
    unfold Digits Digit; decide
  · unfold Digits Digit; decide

/-- The parser rejects the valid JSON text `184467440737095516160.5`, whatever the standard library does. -/
theorem C02_counterexample : ¬ C02_statement := by
  intro h
  have hi : ∀ neg ip, ¬ JInt neg ip zeroTrap := by
    rintro neg ip ⟨hip, ht⟩
    have hd := (intPart_digits hip).1
    have hm : (0x2E : UInt8) ∈ zeroTrap := by decide
    rw [ht] at hm
    rcases List.mem_append.1 hm with hm | hm
    · cases neg <;> simp [sign] at hm
    · have := hd _ hm; unfold Digit at this; simp at this
  obtain ⟨v, hv, -⟩ := h sampleEnv zeroTrap (.num zeroTrap)
    ⟨[], zeroTrap, [], by simp, by simp [Ws], .num _ (.inr ⟨_, _, zeroTrap_float⟩), by simp [Ws]⟩
    ⟨fun neg ip hj => absurd hj (hi neg ip), fun _ _ _ => by simp [sampleEnv]⟩
  have : goUnmarshal sampleEnv zeroTrap = .ok (zeroTrap, .notExist, some .other) := rfl
  rw [this] at hv
  simp at hv

/-- `C02_standard_json_partial` applies to `{"k":[1,null]}`. -/
example (E : Env) : ∃ v, goUnmarshal E (asc "{\"k\":[1,null]}") = .ok (asc "{\"k\":[1,null]}", v, none) ∧
    Denotes E (NumDenotes E) (.obj [⟨asc "k", .arr [.num (asc "1"), .null]⟩]) v := by
  have ws : Ws [] := by simp [Ws]
  have hint : IntPart [0x31] := .inr ⟨0x31, [], rfl, by decide, by decide, by simp [Digits]⟩
  refine C02_standard_json_partial E _ _ ⟨[], asc "{\"k\":[1,null]}", [], by simp, ws, ?_, ws⟩ ?_
  · have el : JElems (asc "1,null") [.num (asc "1"), .null] :=
      .cons [] (asc "1") [] (asc "null") _ _ ws (.num _ (.inl ⟨false, asc "1", hint, rfl⟩)) ws (.one [] (asc "null") [] _ ws .null ws)
    have k : StrBody (asc "k") (asc "k") := .char 0x6B [] [] (by unfold Scalar; decide) (by decide) (by decide) (by decide) .nil
    exact .obj (asc "\"k\":[1,null]") _ (.one [] (asc "\"k\"") [] [] (asc "[1,null]") [] (asc "k") _ ws ⟨asc "k", rfl, k⟩ ws ws (.arr _ _ el) ws)
  · refine ⟨⟨⟨⟨?_, ?_⟩, ?_⟩, trivial, trivial⟩, trivial⟩
    · rintro neg ip ⟨h1, h2⟩
      cases neg
      · simp [sign] at h2; subst h2; decide
      · simp [sign, asc] at h2
    all_goals
      rintro neg ip ⟨fp, ep, h1, h2, h3, h4, h5⟩
      exfalso
      have hl := congrArg List.length h5
      have h6 := (intPart_digits h1).2.1
      have : 0 < ip.length := List.length_pos_iff.2 h6
      have : 0 < (fp ++ ep).length := List.length_pos_iff.2 h4
      simp [asc] at hl this
      omega

/-! ### C03 -/

/-- C03 as stated. -/
def C03_statement : Prop := ∀ (E : Env) (s : Bytes) (v : V), goUnmarshal E s = .ok (s, v, none) → ∃ j, JText s j

/-- Exactly which texts are accepted: those of the lenient grammar `LText`, which differs from RFC 8259 in the points listed in
`Spec/Lenient.lean` and no others. In particular everything after the value must be blank. -/
theorem C03_accepted_texts_partial (E : Env) (hE : FloatSyntax E) (s : Bytes) :
    (∃ v, goUnmarshal E s = .ok (s, v, none)) ↔ ∃ j, LText (AccNum E) s j := by
  have he : NumTok E = AccNum E := funext fun t => propext (numTok_iff hE t)
  constructor
  · rintro ⟨v, h⟩
    obtain ⟨j, hj, -⟩ := (unmarshal_iff E s v).1 (goUnmarshal_ok.1 h).2
    exact ⟨j, he ▸ hj⟩
  · rintro ⟨j, hj⟩
    exact ⟨toV E j, goUnmarshal_ok.2 ⟨rfl, (unmarshal_iff E s _).2 ⟨j, he ▸ hj, rfl⟩⟩⟩

theorem jval_ne {t : Bytes} {j : J} (h : JVal t j) : t ≠ [] := by
  cases h with
  | num _ h =>
    rcases h with ⟨neg, ip, h1, rfl⟩ | ⟨neg, ip, fp, ep, h1, -, -, -, rfl⟩ <;> simp [(intPart_digits h1).2.1]
  | str _ _ h => obtain ⟨b, rfl, -⟩ := h; simp
  | _ => simp

/-- `[,]` is accepted though it is not JSON. -/
theorem C03_counterexample : ¬ C03_statement := by
  intro h
  have hacc : goUnmarshal sampleEnv (asc "[,]") = .ok (asc "[,]", .arr [], none) := rfl
  obtain ⟨j, w1, t, w2, he, h1, hv, h2⟩ := h _ _ _ hacc
  have hne := jval_ne hv
  have e0 : asc "[,]" = [0x5B, 0x2C, 0x5D] := rfl
  rw [e0] at he
  have hw1 : w1 = [] := by
    cases w1 with
    | nil => rfl
    | cons c w =>
      simp at he
      have := h1 c (by simp)
      rw [← he.1] at this
      simp at this
  subst hw1
  have hw2 : w2 = [] := by
    rcases List.eq_nil_or_concat w2 with rfl | ⟨w, c, rfl⟩
    · rfl
    · have hl := congrArg List.getLast? he
      simp at hl
      have := h2 c (by simp)
      rw [← hl] at this
      simp at this
  subst hw2
  simp only [List.nil_append, List.append_nil] at he
  subst he
  have hone : ∀ j, ¬ JVal [0x2C] j := by
    intro j hj
    cases hj with
    | num _ h =>
      have : ∀ neg (ip r : Bytes), IntPart ip → [0x2C] ≠ sign neg ++ ip ++ r := by
        intro neg ip r hip hh
        cases neg
        · obtain ⟨hd, hne, -⟩ := intPart_digits hip
          cases ip with
          | nil => exact hne rfl
          | cons c u =>
            simp [sign] at hh
            have := hd c (by simp)
            rw [← hh.1] at this
            unfold Digit at this
            simp at this
        · simp [sign] at hh
      rcases h with ⟨neg, ip, h1, h2⟩ | ⟨neg, ip, fp, ep, h1, _, _, _, h2⟩
      · exact this neg ip [] h1 (by simpa using h2)
      · exact this neg ip (fp ++ ep) h1 (by simpa using h2)
    | str _ _ h => obtain ⟨b, hb, -⟩ := h; simp at hb
  generalize hg : ([0x5B, 0x2C, 0x5D] : Bytes) = t at hv
  cases hv with
  | num _ h =>
    have : ∀ neg (ip r : Bytes), IntPart ip → [0x5B, 0x2C, 0x5D] ≠ sign neg ++ ip ++ r := by
      intro neg ip r hip hh
      cases neg
      · obtain ⟨hd, hne, -⟩ := intPart_digits hip
        cases ip with
        | nil => exact hne rfl
        | cons c u =>
          simp [sign] at hh
          have := hd c (by simp)
          rw [← hh.1] at this
          unfold Digit at this
          simp at this
      · simp [sign] at hh
    rcases h with ⟨neg, ip, h1, h2⟩ | ⟨neg, ip, fp, ep, h1, _, _, _, h2⟩
    · exact this neg ip [] h1 (by simpa [hg] using h2)
    · exact this neg ip (fp ++ ep) h1 (by simpa [hg] using h2)
  | str _ _ h => obtain ⟨b, hb, -⟩ := h; rw [← hg] at hb; simp at hb
  | arrNil w hw =>
    simp at hg
    have : w = [0x2C] := by
      have := congrArg List.dropLast hg
      simpa using this.symm
    have := hw 0x2C (by simp [this])
    simp at this
  | arr t xs ht =>
    have ht' : t = [0x2C] := by
      simp at hg
      have := congrArg List.dropLast hg
      simpa using this.symm
    subst ht'
    generalize hg2 : ([0x2C] : Bytes) = u at ht
    cases ht with
    | one a b c v ha hb hc =>
      have hbne := jval_ne hb
      have hl := congrArg List.length hg2
      have : 0 < b.length := List.length_pos_iff.2 hbne
      simp at hl
      have hae : a = [] := List.length_eq_zero_iff.1 (by omega)
      have hce : c = [] := List.length_eq_zero_iff.1 (by omega)
      subst hae hce
      simp at hg2
      subst hg2
      exact hone v hb
    | cons a b c ts v vs ha hb hc hts =>
      have hbne := jval_ne hb
      have hl := congrArg List.length hg2
      have : 0 < b.length := List.length_pos_iff.2 hbne
      simp at hl
      omega
  | _ => simp at hg

/-- Trailing data is never ignored: an accepted text followed by anything that is not blank is rejected (when the text ends in a number,
provided what follows cannot continue the number). -/
theorem C03_no_trailing_data (E : Env) (s : Bytes) (v : V) (h : goUnmarshal E s = .ok (s, v, none)) (rest : Bytes) (hr : ¬ Blank rest)
    (hnum : isNumber v = .ok true → NumEnd rest) : ∃ e, goUnmarshal E (s ++ rest) = .ok (s ++ rest, .notExist, some e) := by
  obtain ⟨j, ⟨b1, t, b2, rfl, hb1, ht, hb2⟩, rfl⟩ := (unmarshal_iff E s v).1 (goUnmarshal_ok.1 h).2
  have hrne : rest ≠ [] := by rintro rfl; exact hr (by simp [Blank])
  have hF : Follow j (b2 ++ rest) := by
    cases b2 with
    | nil =>
      cases j <;> simp only [Follow]
      exact hnum rfl
    | cons c b2 => exact (Follow_app (by simp)).2 (Follow_blank hb2)
  obtain ⟨c, u, rfl⟩ : ∃ c u, t = c :: u := by
    obtain ⟨c, u, hu, -⟩ := lenient_complete E ht
    exact ⟨c, u, hu⟩
  obtain ⟨hc, hp⟩ := parseValue_complete E ht ((b1 ++ c :: u ++ b2 ++ rest).length + 1) (b2 ++ rest) (by simp; omega) hF
  have hsk : skipBlanks (b2 ++ rest) ≠ [] := by
    rw [skipBlanks_blank hb2]
    obtain ⟨b, e, hb, -⟩ := skipBlanks_spec rest
    intro h0
    rw [h0, List.append_nil] at e
    exact hr (e ▸ hb)
  have hu : unmarshal E (b1 ++ c :: u ++ b2 ++ rest) = .err .rawBytesUnrecognized := by
    unfold unmarshal
    rw [if_neg (by simp)]
    unfold unmarshalWithIter
    have e1 : b1 ++ c :: u ++ b2 ++ rest = b1 ++ (c :: (u ++ (b2 ++ rest))) := by simp
    rw [e1] at hp ⊢
    rw [skipBlanks_blank hb1, skipBlanks_nb hc]
    simp only [hp, R.bind_ok, if_neg hsk]
  rcases goUnmarshal_cases E (b1 ++ c :: u ++ b2 ++ rest) with ⟨w, h1, -⟩ | ⟨e, -, h2⟩
  · rw [hu] at h1; simp at h1
  · exact ⟨e, by rw [h2, if_neg (by simp)]⟩

-- `[] x` : the array is followed by a blank and more data
example (E : Env) : ∃ e, goUnmarshal E (asc "[true]" ++ asc " x") = .ok (asc "[true]" ++ asc " x", .notExist, some e) :=
  C03_no_trailing_data E (asc "[true]") (.arr [.bool true]) rfl (asc " x") (by intro h; have := h 0x78 (by decide); revert this; decide) (by intro h; simp [isNumber, onV] at h)

/-! ### C04 -/

/-- Parsing in place gives the same value as parsing with every string copied out at the moment it was decoded (the functional parser
`unmarshal`, in which nothing can be overwritten), and the same as `Unmarshal`, which leaves the caller's slice unchanged. In the buffer
given to `UnmarshalNoCopy` only bytes strictly inside string literals are changed. The value of `goUnmarshalNoCopy` is read from the final
contents of the buffer, all strings, keys and number texts being ranges of it. -/
theorem C04_in_place (E : Env) (b it : Bytes) (v : V) (h : goUnmarshalNoCopy E b = .ok (it, v, none)) :
    unmarshal E b = .ok v ∧ goUnmarshal E b = .ok (b, v, none) ∧ it.length = b.length ∧
      ∀ i : Nat, (strMask b false 0)[i]? = some false → it[i]? = b[i]? := by
  rcases goUnmarshalNoCopy_cases E b with ⟨v', it', h1, h2, h3⟩ | ⟨e, x, h1, h2, -⟩
  · rw [h2] at h
    simp only [R.ok.injEq, Prod.mk.injEq, and_true] at h
    obtain ⟨rfl, rfl⟩ := h
    exact ⟨h1, goUnmarshal_ok.2 ⟨rfl, h1⟩, h3.length, frag_mask h3⟩
  · rw [h2] at h; simp at h

/-- and both functions accept the same texts, with the same value -/
theorem C04_same_result (E : Env) (b : Bytes) (v : V) :
    (∃ it, goUnmarshalNoCopy E b = .ok (it, v, none)) ↔ goUnmarshal E b = .ok (b, v, none) := by
  constructor
  · rintro ⟨it, h⟩; exact (C04_in_place E b it v h).2.1
  · intro h
    have h := (goUnmarshal_ok.1 h).2
    rcases goUnmarshalNoCopy_cases E b with ⟨v', it', h1, h2, h3⟩ | ⟨e, x, h1, h2, -⟩
    · rw [h] at h1; simp at h1; subst h1; exact ⟨it', h2⟩
    · rw [h] at h1; simp at h1

/-- What stands in the buffer afterwards, after a success: every string literal is overwritten from its beginning by its decoded text, and nothing
else is changed. -/
theorem C04_buffer (E : Env) (b it : Bytes) (v : V) (h : goUnmarshalNoCopy E b = .ok (it, v, none)) : Decoded b it := by
  rcases goUnmarshalNoCopy_cases E b with ⟨v', it', h1, h2, h3⟩ | ⟨e, x, h1, h2, -⟩
  · rw [h2] at h
    simp only [R.ok.injEq, Prod.mk.injEq, and_true] at h
    exact h.1 ▸ h3
  · rw [h2] at h; simp at h

/-- After an error too: the literals in front of the place of the error are overwritten, the last of them perhaps in part; nothing outside of literals
is changed, nor the length. -/
theorem C04_after_error (E : Env) (b it : Bytes) (v : V) (e : Err) (h : goUnmarshalNoCopy E b = .ok (it, v, some e)) :
    PartlyDecoded b it ∧ it.length = b.length ∧ ∀ i : Nat, (strMask b false 0)[i]? = some false → it[i]? = b[i]? := by
  rcases goUnmarshalNoCopy_cases E b with ⟨v', it', h1, h2, -⟩ | ⟨e', x, h1, h2, h3⟩
  · rw [h2] at h; simp at h
  · rw [h2] at h
    simp only [R.ok.injEq, Prod.mk.injEq] at h
    obtain ⟨rfl, -⟩ := h
    exact ⟨h3, torn_mask h3⟩

/-- A text without a backslash is not changed at all, whatever the result. -/
theorem C04_no_escapes (E : Env) (b it : Bytes) (v : V) (e : Option Err) (h : goUnmarshalNoCopy E b = .ok (it, v, e)) (hb : (0x5C : UInt8) ∉ b) :
    it = b := by
  cases e with
  | none => exact decoded_plain (C04_buffer E b it v h) hb
  | some e => exact torn_plain (C04_after_error E b it v e h).1 hb

-- the first literal and the beginning of the second are overwritten
example : goUnmarshalNoCopy sampleEnv (asc "[\"\\n\",\"\\t\\q\"") = .ok (asc "[\"\nn\",\"\tt\\q\"", .notExist, some .other) := by decide +kernel

/-- A second try on the same slice can succeed where the first one failed: the text `"\u0022` and five blanks, an unterminated literal, has become
`""` and ten blanks. -/
theorem C04_second_try : goUnmarshalNoCopy sampleEnv (asc "\"\\u0022     ") = .ok (asc "\"\"          ", .notExist, some .other) ∧
    goUnmarshalNoCopy sampleEnv (asc "\"\"          ") = .ok (asc "\"\"          ", .str [], none) := by decide +kernel

-- the escape is decoded in place: the buffer changes inside the literal, the member still reads `a"b`
example : goUnmarshalNoCopy sampleEnv (asc "{\"k\":\"a\\\"b\"}") =
    .ok (asc "{\"k\":\"a\"bb\"}", .obj 1 [⟨asc "k", 1, .str (asc "a\"b")⟩] none, none) := by decide +kernel

/-! ### C05 -/

/-- The members of a parsed object are those of the text: `Get(key)` gives the member written last, `ErrNotFound` if there is none, and
`Len()` is the number of distinct keys (`Denotes`, at every level; numbers are not looked at here). -/
theorem C05_objects_are_maps (E : Env) (hE : FloatSyntax E) (s : Bytes) (v : V) (h : goUnmarshal E s = .ok (s, v, none)) :
    ∃ j, LText (AccNum E) s j ∧ Denotes E (fun _ _ => True) j v := by
  have he : NumTok E = AccNum E := funext fun t => propext (numTok_iff hE t)
  obtain ⟨j, hj, rfl⟩ := (unmarshal_iff E s v).1 (goUnmarshal_ok.1 h).2
  exact ⟨j, he ▸ hj, toV_denotes E _ j (AllNums_true j)⟩

-- repeated key: one member, the last one
example : goUnmarshal sampleEnv (asc "{\"a\":true,\"b\":null,\"a\":false}") = .ok (asc "{\"a\":true,\"b\":null,\"a\":false}",
    .obj 3 [⟨asc "a", 3, .bool false⟩, ⟨asc "b", 2, .null⟩] none, none) := by decide +kernel

/-! ### C06 -/

/-- C06 as stated. -/
def C06_statement : Prop := ∀ (E : Env) (neg : Bool) (ds : Bytes) (v : V), Digits ds → ds ≠ [] →
  goUnmarshal E (sign neg ++ ds) = .ok (sign neg ++ ds, v, none) →
    (-2 ^ 63 ≤ intVal neg ds ∧ intVal neg ds < 2 ^ 64) ∧
    (intVal neg ds < 2 ^ 63 → ∃ i, int64 E v = .ok i ∧ i.toInt = intVal neg ds) ∧
    (0 ≤ intVal neg ds → ∃ u, uint64 E v = .ok u ∧ (u.toNat : Int) = intVal neg ds)

/-- C06 except for the 20 digit literals that are at least 2^64 and whose value modulo 2^64 is at least 10^19 (they are accepted and
wrapped, see `C06_counterexample`). -/
theorem C06_integers_partial (E : Env) (neg : Bool) (ds : Bytes) (v : V) (hd : Digits ds) (hne : ds ≠ [])
    (h : goUnmarshal E (sign neg ++ ds) = .ok (sign neg ++ ds, v, none)) :
    ((-2 ^ 63 ≤ intVal neg ds ∧ intVal neg ds < 2 ^ 64) ∧
     (intVal neg ds < 2 ^ 63 → ∃ i, int64 E v = .ok i ∧ i.toInt = intVal neg ds) ∧
     (0 ≤ intVal neg ds → ∃ u, uint64 E v = .ok u ∧ (u.toNat : Int) = intVal neg ds)) ∨
    (neg = false ∧ ds.length = 20 ∧ 2 ^ 64 ≤ decVal ds ∧ 10 ^ 19 ≤ decVal ds % 2 ^ 64) := by
  obtain ⟨hi, rfl⟩ := unmarshal_intText hd hne (goUnmarshal_ok.1 h).2
  obtain ⟨-, -, hi⟩ := hi
  have hden := intNum_denotes E neg (decVal ds)
  have hlt := decVal_le ds hd
  by_cases hr : -2 ^ 63 ≤ intVal neg ds ∧ intVal neg ds < 2 ^ 64
  · left
    refine ⟨hr, fun h2 => ⟨_, rfl, hden.2.2.1 hr.1 h2⟩, fun h2 => ⟨_, rfl, hden.2.2.2 h2 hr.2⟩⟩
  · right
    unfold intVal at hr
    cases neg
    · simp only [Bool.false_eq_true, if_false] at hr hi
      have hge : 2 ^ 64 ≤ decVal ds := by omega
      refine ⟨rfl, ?_⟩
      rcases hi.2 with hl | hl
      · exfalso
        have : 10 ^ ds.length ≤ 10 ^ 19 := Nat.pow_le_pow_right (by decide) hl
        omega
      · exact ⟨hl.1, hge, hl.2⟩
    · exfalso
      simp only [if_true] at hr hi
      rcases hi.2 with hl | hl
      · have : 10 ^ ds.length ≤ 10 ^ 18 := Nat.pow_le_pow_right (by decide) hl
        omega
      · omega

/-- 28446744073709551616 = 2^64 + 10^19 is accepted and reads back as 10^19. -/
theorem C06_counterexample : ¬ C06_statement := by
  intro h
  have := h sampleEnv false (asc "28446744073709551616") (.num (asc "28446744073709551616") ⟨false, false, 10000000000000000000#64, 10000000000000000000#64, 10000000000000000000#64⟩)
    (by unfold Digits Digit; decide) (by decide) (by decide +kernel)
  exact absurd this.1.2 (by decide +kernel)

-- a literal inside the range
example : goUnmarshal sampleEnv (sign true ++ asc "9223372036854775808") = .ok (sign true ++ asc "9223372036854775808",
    .num (asc "-9223372036854775808") ⟨true, false, 0x8000000000000000#64, 0x8000000000000000#64, 0x0#64⟩, none) := by decide +kernel

/-! ### C31 -/

/-- `MustUnmarshalString` and `MustUnmarshalNoCopy` return a value, never nil, whatever the input. -/
theorem C31_mustUnmarshalString (E : Env) (s : Bytes) : ∃ v, mustUnmarshalString E s = .ok v ∧ v ≠ .nilp := by
  rcases goUnmarshalNoCopy_cases E s with ⟨v, it, h1, h2, -⟩ | ⟨e, x, h1, h2, -⟩
  · exact ⟨v, by simp [mustUnmarshalString, goUnmarshalString, h2], (unmarshal_exists h1).1⟩
  · exact ⟨_, by simp [mustUnmarshalString, goUnmarshalString, h2]; rfl, by simp⟩

theorem C31_mustUnmarshalNoCopy (E : Env) (b : Bytes) : ∃ v, mustUnmarshalNoCopy E b = .ok v ∧ v ≠ .nilp := by
  rcases goUnmarshalNoCopy_cases E b with ⟨v, it, h1, h2, -⟩ | ⟨e, x, h1, h2, -⟩
  · exact ⟨v, by simp [mustUnmarshalNoCopy, h2], (unmarshal_exists h1).1⟩
  · exact ⟨_, by simp [mustUnmarshalNoCopy, h2]; rfl, by simp⟩

/-- `MustUnmarshal` returns a value, never nil, for every non-empty input; missing: the empty input (`C31_counterexample`). -/
theorem C31_mustUnmarshal_partial (E : Env) (b : Bytes) (hb : b ≠ []) : ∃ v, mustUnmarshal E b = .ok v ∧ v ≠ .nilp := by
  rcases goUnmarshal_cases E b with ⟨v, h1, h2⟩ | ⟨e, h1, h2⟩
  · exact ⟨v, by simp [mustUnmarshal, h2], (unmarshal_exists h1).1⟩
  · exact ⟨_, by simp [mustUnmarshal, h2]; rfl, by simp [hb]⟩

/-- `MustUnmarshal([]byte{})` is a nil `*V`; calling a method on it panics. -/
theorem C31_counterexample (E : Env) : mustUnmarshal E [] = .ok .nilp ∧ len .nilp = .panic := ⟨rfl, rfl⟩

/-! ### C45 -/

/-- `UnmarshalJSON` / `UnmarshalBinary` on a non-nil receiver: on success the receiver becomes the value `Unmarshal` gives, otherwise it is
unchanged and the error is that of `Unmarshal`. One of the two always happens. -/
theorem C45_unmarshalJSON (E : Env) (recv : V) (hr : recv ≠ .nilp) (b : Bytes) :
    (∃ w, goUnmarshal E b = .ok (b, w, none) ∧ unmarshalJSON E recv b = .ok (w, none)) ∨
    (∃ w e, goUnmarshal E b = .ok (b, w, some e) ∧ unmarshalJSON E recv b = .ok (recv, some e)) := by
  rcases goUnmarshal_cases E b with ⟨v, h1, h2⟩ | ⟨e, h1, h2⟩
  · left
    refine ⟨v, h2, ?_⟩
    have := (unmarshal_exists h1).1
    simp only [unmarshalJSON, h2, R.bind_ok]
    cases recv <;> cases v <;> simp_all
  · right
    exact ⟨_, e, h2, by simp [unmarshalJSON, h2]⟩

example : unmarshalJSON sampleEnv (.bool true) (asc "[1") = .ok (.bool true, some .notArrayValue) ∧
    unmarshalJSON sampleEnv (.bool true) (asc "null") = .ok (.null, none) := by decide +kernel

end JV
