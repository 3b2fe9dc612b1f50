import Verif.Proofs.Layout
import Verif.Proofs.StrictScan
import Verif.Props.Typed
/-!
C07, C08, C10, C11, C12, C13, C18, C44 (round trip), C46 (Marshal): what Marshal writes.

`d` is the global default set by SetDefaultMarshalOptions, `S` the behaviour of sort.Sort.
-/
namespace JV
open Spec

/-! ### C07 -/

/-- `NewInt64(i)`, for every `i` and whatever the options: Marshal succeeds with the decimal literal of `i`; Unmarshal of that text gives a
number with the same literal, `Int64() == i`, and the same sign. -/
theorem C07_int64 (E : Env) (S : SortFn) (d : Opt) (opts : List MOpt) (i : BitVec 64) :
    ∃ t ip w, marshal E S d (newInt64 E i) opts = .ok (t, none) ∧ JInt (decide (i.toInt < 0)) ip t ∧ intVal (decide (i.toInt < 0)) ip = i.toInt ∧
      goUnmarshal E t = .ok (t, w, none) ∧ int64 E w = .ok i ∧ isNegative w = .ok (decide (i.toInt < 0)) ∧ isFloat w = .ok false ∧
      marshal E S d w opts = .ok (t, none) := by
  obtain ⟨ip, h1, h2⟩ := fmtInt_spec i
  have hne : fmtInt i ≠ [] := by rw [h1.2]; simp [(intPart_digits h1.1).2]
  have hlo : -2 ^ 63 ≤ i.toInt := BitVec.le_toInt i
  have hhi : i.toInt < 2 ^ 63 := BitVec.toInt_lt
  obtain ⟨n, h3, h4⟩ := unmarshal_int E h1 (by omega) (by omega)
  obtain ⟨h5, h6, h7, -⟩ := h4.1 _ _ h1
  refine ⟨fmtInt i, ip, .num (fmtInt i) n, marshal_num E S d opts _ hne, h1, h2, goUnmarshal_ok.2 ⟨rfl, h3⟩, ?_, ?_, ?_, marshal_num E S d opts _ hne⟩
  · have : n.i64 = i := BitVec.eq_of_toInt_eq (by rw [h7 (by omega) (by omega), h2])
    rw [← this]; rfl
  · show R.ok n.negative = _; rw [h5]
  · show R.ok n.floated = _; rw [h6]

/-- `NewUint64(u)`, for every `u`. -/
theorem C07_uint64 (E : Env) (S : SortFn) (d : Opt) (opts : List MOpt) (u : BitVec 64) :
    ∃ t ip w, marshal E S d (newUint64 E u) opts = .ok (t, none) ∧ JInt false ip t ∧ intVal false ip = u.toNat ∧
      goUnmarshal E t = .ok (t, w, none) ∧ uint64 E w = .ok u ∧ isNegative w = .ok false ∧ isFloat w = .ok false ∧
      marshal E S d w opts = .ok (t, none) := by
  obtain ⟨ip, h1, h2⟩ := fmtUint_spec u
  have hne : fmtUint u ≠ [] := by rw [h1.2]; simp [sign, (intPart_digits h1.1).2]
  have hlt := u.isLt
  obtain ⟨n, h3, h4⟩ := unmarshal_int E h1 (by omega) (by omega)
  obtain ⟨h5, h6, -, h7⟩ := h4.1 _ _ h1
  refine ⟨fmtUint u, ip, .num (fmtUint u) n, marshal_num E S d opts _ hne, h1, h2, goUnmarshal_ok.2 ⟨rfl, h3⟩, ?_, ?_, ?_, marshal_num E S d opts _ hne⟩
  · have : n.u64 = u := BitVec.eq_of_toNat_eq (by have := h7 (by omega) (by omega); omega)
    rw [← this]; rfl
  · show R.ok n.negative = _; rw [h5]
  · show R.ok n.floated = _; rw [h6]

-- the extremes
example : marshal sampleEnv insertionSort emptyOptions (newInt64 sampleEnv 0x8000000000000000#64) [] = .ok (asc "-9223372036854775808", none) := by decide +kernel
example : marshal sampleEnv insertionSort emptyOptions (newUint64 sampleEnv 0xFFFFFFFFFFFFFFFF#64) [] = .ok (asc "18446744073709551615", none) := by decide +kernel

/-! ### C44, round trip -/

/-- Constructed integers keep their classification: whatever IsFloat, IsInteger, IsNegative and GreaterThanInt64Max say of `NewInt64(i)` they
say of the value read back. -/
theorem C44_roundtrip_int (E : Env) (S : SortFn) (d : Opt) (opts : List MOpt) (i : BitVec 64) :
    ∃ t w, marshal E S d (newInt64 E i) opts = .ok (t, none) ∧ goUnmarshal E t = .ok (t, w, none) ∧ isFloat w = isFloat (newInt64 E i) ∧
      isInteger w = isInteger (newInt64 E i) ∧ isNegative w = isNegative (newInt64 E i) ∧ greaterThanInt64Max w = greaterThanInt64Max (newInt64 E i) := by
  obtain ⟨ip, h1, h2⟩ := fmtInt_spec i
  have hne : fmtInt i ≠ [] := by rw [h1.2]; simp [(intPart_digits h1.1).2]
  have hlo : -2 ^ 63 ≤ i.toInt := BitVec.le_toInt i
  have hhi : i.toInt < 2 ^ 63 := BitVec.toInt_lt
  obtain ⟨n, h3, h4⟩ := unmarshal_int E h1 (by omega) (by omega)
  obtain ⟨h5, h6, h7, h8⟩ := h4.1 _ _ h1
  refine ⟨fmtInt i, .num (fmtInt i) n, marshal_num E S d opts _ hne, goUnmarshal_ok.2 ⟨rfl, h3⟩, ?_, ?_, ?_, ?_⟩
  · show R.ok n.floated = _; rw [h6]; rfl
  · show R.ok (!n.floated) = _; rw [h6]; rfl
  · show R.ok n.negative = _; rw [h5]; rfl
  · rw [(C44_newInt E i).2.2.2]
    simp only [greaterThanInt64Max, onV, h5]
    by_cases hn : i.toInt < 0
    · simp [hn]
    · have h9 := h8 (by omega) (by omega)
      simp only [hn, decide_false, Bool.false_eq_true, if_false, R.ok.injEq, decide_eq_false_iff_not, gt_iff_lt, BitVec.lt_def]
      rw [show (0x7fffffffffffffff#64).toNat = 2 ^ 63 - 1 from rfl]
      omega

theorem C44_roundtrip_uint (E : Env) (S : SortFn) (d : Opt) (opts : List MOpt) (u : BitVec 64) :
    ∃ t w, marshal E S d (newUint64 E u) opts = .ok (t, none) ∧ goUnmarshal E t = .ok (t, w, none) ∧ isFloat w = isFloat (newUint64 E u) ∧
      isInteger w = isInteger (newUint64 E u) ∧ isNegative w = isNegative (newUint64 E u) ∧ greaterThanInt64Max w = greaterThanInt64Max (newUint64 E u) := by
  obtain ⟨ip, h1, h2⟩ := fmtUint_spec u
  have hne : fmtUint u ≠ [] := by rw [h1.2]; simp [sign, (intPart_digits h1.1).2]
  have hlt := u.isLt
  obtain ⟨n, h3, h4⟩ := unmarshal_int E h1 (by omega) (by omega)
  obtain ⟨h5, h6, -, h7⟩ := h4.1 _ _ h1
  have h9 : n.u64 = u := BitVec.eq_of_toNat_eq (by have := h7 (by omega) (by omega); omega)
  refine ⟨fmtUint u, .num (fmtUint u) n, marshal_num E S d opts _ hne, goUnmarshal_ok.2 ⟨rfl, h3⟩, ?_, ?_, ?_, ?_⟩
  · show R.ok n.floated = _; rw [h6]; rfl
  · show R.ok (!n.floated) = _; rw [h6]; rfl
  · show R.ok n.negative = _; rw [h5]; rfl
  · simp only [greaterThanInt64Max, onV, newUint64, h5, h9]

/-- For a constructed float the round trip changes IsFloat whenever the text has a fraction or exponent. -/
theorem C44_roundtrip_float (E : Env) (hpf : FloatSyntax E) (S : SortFn) (d : Opt) (opts : List MOpt) (fmt : Bytes) (f : BitVec 64) (neg : Bool) (ip : Bytes) (n : Num)
    (hf : isValidFloat f = true) (hj : JFloat neg ip fmt) (hp : goUnmarshal E fmt = .ok (fmt, .num fmt n, none)) :
    marshal E S d (newFloat64f E fmt f) opts = .ok (fmt, none) ∧ isFloat (newFloat64f E fmt f) = .ok false ∧ isFloat (.num fmt n) = .ok true := by
  have hne : fmt ≠ [] := by
    obtain ⟨fp, ep, h1, h2, h3, h4, h5⟩ := hj
    rintro rfl
    have := congrArg List.length h5
    simp only [List.length_nil, List.length_append] at this
    exact h4 (by rw [← List.length_eq_zero_iff, List.length_append]; omega)
  have hm : newFloat64f E fmt f = .num fmt { negative := fltNeg f, floated := false, f64 := f, i64 := E.f64ToI64 f, u64 := E.f64ToU64 f } := by
    unfold newFloat64f; rw [if_pos hf]
  refine ⟨by rw [hm]; exact marshal_num E S d opts _ hne, rfl, ?_⟩
  exact ((C44_parsed_partial E hpf fmt n (.inr ⟨neg, ip, hj⟩) (goUnmarshal_ok.1 hp).2).1).2 ⟨neg, ip, hj⟩

/-! ### C08 -/

/-- Every string, under every list of options: Marshal succeeds, and what Unmarshal reads back is the string with invalid bytes replaced by
U+FFFD. -/
theorem C08_any_string (E : Env) (S : SortFn) (d : Opt) (opts : List MOpt) (s : Bytes) :
    ∃ b t, marshal E S d (.str s) opts = .ok (b, none) ∧ Cleaned s t ∧ goUnmarshal E b = .ok (b, .str t, none) := by
  refine ⟨_, _, marshal_str E S d opts s, cleaned_runes s, goUnmarshal_ok.2 ⟨rfl, (unmarshal_iff E _ _).2 ⟨.str _, ?_, rfl⟩⟩⟩
  exact ⟨[], _, [], by simp, Blank_nil, .str _ _ (escText_lenient (escOf_ok d opts) s), Blank_nil⟩

/-- A valid UTF-8 string comes back unchanged. -/
theorem C08_roundtrip (E : Env) (S : SortFn) (d : Opt) (opts : List MOpt) (s : Bytes) (h : ValidUTF8 s) :
    ∃ b, marshal E S d (.str s) opts = .ok (b, none) ∧ goUnmarshal E b = .ok (b, .str s, none) := by
  obtain ⟨b, t, h1, h2, h3⟩ := C08_any_string E S d opts s
  rw [cleaned_valid h h2] at h3
  exact ⟨b, h1, h3⟩

/-- C08, second sentence. False: see `C08_counterexample`. -/
def C08_literal_statement : Prop := ∀ (E : Env) (S : SortFn) (d : Opt) (opts : List MOpt) (s b : Bytes),
  marshal E S d (.str s) opts = .ok (b, none) → ∃ t, JText b (.str t) ∧ Cleaned s t

/-- For a string without U+000B the output is a JSON string literal for the cleaned string. -/
theorem C08_literal_partial (E : Env) (S : SortFn) (d : Opt) (opts : List MOpt) (s b : Bytes) (hvt : 0xB ∉ s)
    (h : marshal E S d (.str s) opts = .ok (b, none)) : ∃ t, JText b (.str t) ∧ Cleaned s t := by
  rw [marshal_str] at h
  simp only [R.ok.injEq, Prod.mk.injEq, and_true] at h
  subst h
  exact ⟨_, ⟨[], _, [], by simp, by simp [Ws], .str _ _ ⟨_, rfl, (strOK_strict (escOf_ok d opts)).esc s hvt⟩, by simp [Ws]⟩, cleaned_runes s⟩

/-- The vertical tab is written as it is, which no JSON string may contain. -/
theorem C08_counterexample : ¬ C08_literal_statement := by
  intro h
  obtain ⟨t, ht, -⟩ := h sampleEnv insertionSort emptyOptions [] [0xB] [0x22, 0xB, 0x22] (by decide +kernel)
  exact not_json (by decide +kernel) ⟨_, ht⟩

-- a supplementary character, a quote and an invalid byte
example : marshal sampleEnv insertionSort emptyOptions (.str [0xF0, 0x9F, 0x98, 0x80, 0x22, 0xFF]) [] = .ok (asc "\"\\uD83D\\uDE00\\\"\\uFFFD\"", none) := by decide +kernel
example : marshal sampleEnv insertionSort emptyOptions (.str [0xF0, 0x9F, 0x98, 0x80, 0x2F, 0x3C]) [.utf8, .escapeHTML false, .escapeSlash false] =
    .ok ([0x22, 0xF0, 0x9F, 0x98, 0x80, 0x2F, 0x3C, 0x22], none) := by decide +kernel

/-! ### C10 -/

/-- C10 as stated, for values built from what the constructors make. False: see the counterexamples. -/
def C10_statement : Prop := ∀ (E : Env) (S : SortFn) (d : Opt) (v : V) (opts : List MOpt) (b : Bytes), GoodSort S → Built E (ApiScalar E) v →
  marshal E S d v opts = .ok (b, none) → ∃ j, JText b j

/-- Marshal without error writes a JSON text, and its contents are those of the value, in the order that the options ask for — provided that
no string or key contains U+000B, every number text is a JSON number (or a special number with a JSON replacement), OptOmitNull meets no
null member, and the indentation is white space. -/
theorem C10_valid_json_partial (E : Env) (S : SortFn) (d : Opt) (v : V) (opts : List MOpt) (b : Bytes) (hS : GoodSort S) (hv : Marshalable v)
    (hp : Her (Printable E (combineOptions d opts) JNum (fun s => 0xB ∉ s)) v) (hn : Her (NothingOmitted (combineOptions d opts)) v)
    (hi : WsIndent (combineOptions d opts).indent) (h : marshal E S d v opts = .ok (b, none)) :
    ∃ j, JText b j ∧ Shows E (combineOptions d opts) (fun _ _ _ => True) [] v j := by
  obtain ⟨j, h1, h2⟩ := marshal_strict hS d hv hp hn hi h
  exact ⟨j, h1, shows_mono (fun _ _ _ _ => trivial) h2⟩

/-- ... and under these conditions it does not fail either. -/
theorem C10_no_error_partial (E : Env) (S : SortFn) (d : Opt) (v : V) (opts : List MOpt) (hv : Marshalable v)
    (hp : Her (Printable E (combineOptions d opts) JNum (fun s => 0xB ∉ s)) v) : ∃ b, marshal E S d v opts = .ok (b, none) :=
  ⟨_, marshal_printable d hv (her_self hp)⟩

/-- a vertical tab inside a string -/
theorem C10_counterexample : ¬ C10_statement := by
  intro h
  exact not_json (by decide +kernel) (h sampleEnv insertionSort emptyOptions (.str [0xB]) [] [0x22, 0xB, 0x22] insertionSort_good (.scalar _ trivial (.str _)) (by decide +kernel))

/-- a NaN member: the error is dropped -/
theorem C10_counterexample_nan : ∃ v b, Built sampleEnv (ApiScalar sampleEnv) v ∧ marshal sampleEnv insertionSort emptyOptions v [] = .ok (b, none) ∧ b = asc "{\"a\":}" ∧ ¬ ∃ j, JText b j := by
  refine ⟨_, _, .set newObject { c := newFloat64f sampleEnv [] 0x7FF8000000000000#64 } [.str (asc "a")] .object (.scalar _ trivial (.float _ _ fun h => absurd h (by decide))), ?_, rfl, not_json (by decide +kernel)⟩
  decide +kernel

/-- OptOmitNull: the comma after a left-out member is missing -/
theorem C10_counterexample_omitnull : ∃ v b, Built sampleEnv (ApiScalar sampleEnv) v ∧ marshal sampleEnv insertionSort emptyOptions v [.omitNull true, .setSeq] = .ok (b, none) ∧
    b = asc "{\"a\":1\"c\":2}" ∧ ¬ ∃ j, JText b j := by
  refine ⟨_, _, .parsed (asc "{\"a\":1,\"b\":null,\"c\":2}") _ rfl, ?_, rfl, not_json (by decide +kernel)⟩
  decide +kernel

/-- a number the parser should not have accepted is written as it was read -/
theorem C10_counterexample_number : ∃ v b, Built sampleEnv (ApiScalar sampleEnv) v ∧ marshal sampleEnv insertionSort emptyOptions v [] = .ok (b, none) ∧ b = asc "-05" ∧ ¬ ∃ j, JText b j := by
  refine ⟨_, _, .parsed (asc "-05") _ rfl, by decide +kernel, rfl, ?_⟩
  rintro ⟨j, w1, t, w2, he, h1, h2, h3⟩
  have hw : ∀ (w : Bytes), Ws w → ∀ c t, w = c :: t → c ≠ 0x2D ∧ c ≠ 0x35 := by
    rintro w hw c t rfl
    have := hw c (by simp)
    rcases this with rfl | rfl | rfl | rfl <;> decide
  have hw1 : w1 = [] := by
    cases w1 with
    | nil => rfl
    | cons c t' => have : c = 0x2D := by simp [asc] at he; exact he.1.symm
                   exact absurd this (hw _ h1 _ _ rfl).1
  have hw2 : w2 = [] := by
    rcases List.eq_nil_or_concat w2 with h | ⟨l, c, rfl⟩
    · exact h
    · have : c = 0x35 := by
        have := congrArg List.getLast? he
        simp [asc] at this
        exact this.symm
      subst this
      have := h3 0x35 (by simp)
      rcases this with h | h | h | h <;> exact absurd h (by decide)
  subst hw1; subst hw2
  simp only [List.nil_append, List.append_nil] at he
  subst he
  have hn : JNum (asc "-05") := by
    generalize hg : asc "-05" = g at h2
    cases h2 with
    | num _ hn => exact hn
    | str _ _ hs => obtain ⟨body, rfl, -⟩ := hs; simp [asc] at hg
    | _ => simp [asc] at hg
  have hip : ∀ (ip r : Bytes), IntPart ip → (asc "-05") = sign true ++ ip ++ r → r = [0x35] := by
    rintro ip r hip he
    have he : [0x30, 0x35] = ip ++ r := by simpa [asc, sign] using he
    rcases hip with rfl | ⟨d, ds, rfl, hd, -⟩
    · simpa using he.symm
    · simp at he; rw [← he.1] at hd; exact absurd hd (by decide)
  have hneg : ∀ (ip r : Bytes), IntPart ip → (asc "-05") ≠ sign false ++ ip ++ r := by
    rintro ip r hip he
    rcases hip with rfl | ⟨d, ds, rfl, hd, -⟩
    · simp [asc, sign] at he
    · simp [asc, sign] at he; rw [← he.1] at hd; exact absurd hd (by decide)
  rcases hn with ⟨neg, ip, h1, h2⟩ | ⟨neg, ip, fp, ep, h1, h2, h3, h4, h5⟩
  · cases neg
    · exact hneg ip [] h1 (by rw [h2, List.append_nil])
    · have := hip ip [] h1 (by rw [h2, List.append_nil]); cases this
  · cases neg
    · exact hneg ip (fp ++ ep) h1 (by rw [h5]; simp)
    · have := hip ip (fp ++ ep) h1 (by rw [h5]; simp)
      rcases h2 with rfl | ⟨ds, rfl, -⟩
      · rcases h3 with rfl | ⟨c, sg, ds, rfl, hc, -⟩
        · exact h4 rfl
        · simp at this; rcases hc with rfl | rfl <;> simp at this
      · simp at this

-- a value that meets the conditions: parsed, with a nested array, a null and indentation
example : marshal sampleEnv insertionSort emptyOptions (.obj 2 [⟨asc "k", 1, .arr [.null, .bool true]⟩, ⟨asc "a", 2, .str (asc "x/y")⟩] none) [.indent [] [0x20, 0x20], .less (some defaultStringSequence)] =
    .ok (asc "{\n  \"a\": \"x\\/y\",\n  \"k\": [\n    null,\n    true\n  ]\n}", none) := by decide +kernel

/-! ### C46, Marshal -/

/-- On a value built by public calls from scalars that are neither nil nor NotExist Marshal does not panic, whatever the options; an error is
reported only if the value itself is a number. -/
theorem C46_marshal_total (E : Env) (S : SortFn) (d : Opt) (v : V) (opts : List MOpt) (hb : Built E Solid v) :
    ∃ b e, marshal E S d v opts = .ok (b, e) ∧ (e ≠ none → ∃ src n, v = .num src n) := by
  rw [marshal_eq d (built_marshalable hb)]
  cases he : errOf (optOf d opts) v with
  | none => exact ⟨_, none, rfl, fun h => absurd rfl h⟩
  | some e =>
    refine ⟨_, some e, rfl, fun _ => ?_⟩
    cases v <;> simp [errOf] at he
    exact ⟨_, _, rfl⟩

/-- Marshal never reports success for a value that does not exist (such as the one MustUnmarshal and MustGet give for a failure), under any
options; what it returns then is the error and no text. -/
theorem C46_uninitialized (E : Env) (S : SortFn) (d : Opt) (opts : List MOpt) :
    (∀ v b, marshal E S d v opts = .ok (b, none) → v ≠ .notExist ∧ v ≠ .nilp) ∧
    marshal E S d .notExist opts = .ok ([], some .valueUninitialized) := by
  refine ⟨fun v b h => ⟨?_, ?_⟩, rfl⟩
  · rintro rfl; simp [marshal] at h
  · rintro rfl; simp [marshal] at h

/-! ### C11 -/

/-- What Marshal writes, for every value without nil pointers and every list of options: the tokens of the value, in which every string and every key stands
between quotes with each code point written as `escSpec` says under the last OptUTF8, OptEscapeHTML and OptEscapeSlash given, invalid bytes
as U+FFFD; and the layout of these tokens by the last OptIndent. -/
theorem C11_escaping_exact (E : Env) (S : SortFn) (v : V) (opts : List MOpt) (b : Bytes) (hS : GoodSort S) (hv : Marshalable v)
    (h : marshal E S emptyOptions v opts = .ok (b, none)) :
    ∃ t, Lays (combineOptions emptyOptions opts) AnyOrder (Escaped (lastSet setsUTF8 opts false) (lastSet setsHTML opts true) (lastSet setsSlash opts true)) [] v t ∧
      b = t.print (lastSet setsIndent opts none) 0 := by
  obtain ⟨-, rfl⟩ := marshal_ok hv h
  refine ⟨doc E S (combineOptions emptyOptions opts) (escOf emptyOptions opts) v none, doc_lays hS ?_ v (fun _ _ _ _ _ _ _ _ => trivial) v hv.1 hv.2.1 [] rfl none fun _ => ⟨infoAt_root, parentAt_root v⟩, ?_⟩
  · intro s
    have h1 : escHas (opts.foldl MOpt.mergeTo emptyOptions).escProps escapeUTF8 = lastSet setsUTF8 opts false := set_utf8 opts
    have h2 : (!escHas (opts.foldl MOpt.mergeTo emptyOptions).escProps escapeWithoutHTML) = lastSet setsHTML opts true := set_html opts
    have h3 : (!escHas (opts.foldl MOpt.mergeTo emptyOptions).escProps escapeIgnoreSlash) = lastSet setsSlash opts true := set_slash opts
    refine ⟨_, Decodes_runes s, ?_⟩
    rw [← h1, ← h2, ← h3]
    exact escText_spec _ (Decodes_runes s)
  · unfold textOf
    have : (optOf emptyOptions opts).indent = lastSet setsIndent opts none := set_indent opts
    rw [this]
    rfl

/-- `escSpec` by option: OptUTF8 only concerns code points from U+0080 on, OptEscapeHTML(false) only `<`, `>` and `&`, OptEscapeSlash(false)
only `/`; quote, backslash, and control characters other than U+000B are escaped under every combination. -/
theorem C11_options_independent (u h s u' h' s' : Bool) (r : Nat) :
    (r < 0x80 → escSpec u h s r = escSpec u' h s r) ∧
    (r ≠ 0x3C → r ≠ 0x3E → r ≠ 0x26 → escSpec u h s r = escSpec u h' s r) ∧
    (r ≠ 0x2F → escSpec u h s r = escSpec u h s' r) ∧
    (r = 0x22 ∨ r = 0x5C ∨ r = 0x7F ∨ (r < 0x20 ∧ r ≠ 0xB) → ∃ t, escSpec u h s r = 0x5C :: t ∧ ∀ c ∈ t, 0x20 ≤ c.toNat ∧ c.toNat < 0x7F) := by
  have small1 : ∀ u h s u', ∀ r, r < 0x80 → escSpec u h s r = escSpec u' h s r := by decide +kernel
  have small2 : ∀ u h s h', ∀ r, r < 0x80 → (r = 0x3C ∨ r = 0x3E ∨ r = 0x26) ∨ escSpec u h s r = escSpec u h' s r := by decide +kernel
  have small3 : ∀ u h s s', ∀ r, r < 0x80 → r = 0x2F ∨ escSpec u h s r = escSpec u h s' r := by decide +kernel
  have ctl : ∀ u h s, ∀ r, r < 0x80 → (r = 0x22 ∨ r = 0x5C ∨ r = 0x7F ∨ (r < 0x20 ∧ r ≠ 0xB)) → (escSpec u h s r).head? = some 0x5C ∧ ∀ c ∈ (escSpec u h s r).tail, 0x20 ≤ c.toNat ∧ c.toNat < 0x7F := by
    decide +kernel
  refine ⟨fun hr => small1 u h s u' r hr, ?_, ?_, ?_⟩
  · intro h1 h2 h3
    by_cases hr : r < 0x80
    · exact (small2 u h s h' r hr).resolve_left (by omega)
    · rw [escSpec_high _ _ _ hr, escSpec_high _ _ _ hr]
  · intro h1
    by_cases hr : r < 0x80
    · exact (small3 u h s s' r hr).resolve_left h1
    · rw [escSpec_high _ _ _ hr, escSpec_high _ _ _ hr]
  · intro hc
    have hr : r < 0x80 := by omega
    obtain ⟨h1, h2⟩ := ctl u h s r hr hc
    cases hx : escSpec u h s r with
    | nil => rw [hx] at h1; cases h1
    | cons c t => rw [hx] at h1 h2; cases h1; exact ⟨t, rfl, h2⟩

/-- The first sentence of C11 as stated. False: see `C11_counterexample`. -/
def C11_default_statement : Prop := ∀ (E : Env) (S : SortFn) (v : V) (b : Bytes), GoodSort S → Built E (ApiScalar E) v →
  marshal E S emptyOptions v [] = .ok (b, none) → ∀ c ∈ b, 0x20 ≤ c.toNat ∧ c.toNat < 0x7F ∧ c ≠ 0x3C ∧ c ≠ 0x3E ∧ c ≠ 0x26

theorem numChar_plain {c : UInt8} (h : NumChar c) : 0x20 ≤ c.toNat ∧ c.toNat < 0x7F ∧ c ≠ 0x3C ∧ c ≠ 0x3E ∧ c ≠ 0x26 := by
  unfold NumChar Digit at h
  have : ∀ c : UInt8, ((0x30 ≤ c.toNat ∧ c.toNat ≤ 0x39) ∨ c = 0x2B ∨ c = 0x2D ∨ c = 0x2E ∨ c = 0x65 ∨ c = 0x45) →
      0x20 ≤ c.toNat ∧ c.toNat < 0x7F ∧ c ≠ 0x3C ∧ c ≠ 0x3E ∧ c ≠ 0x26 := by
    rintro c (⟨h1, h2⟩ | rfl | rfl | rfl | rfl | rfl) <;> try decide
    refine ⟨by omega, by omega, ?_, ?_, ?_⟩ <;> (rintro rfl; revert h1 h2; decide)
  exact this c h

/-- Unless OptUTF8 is given or HTML escaping turned off, and whatever else is: every byte of the output is visible ASCII other than `<`, `>`, `&`, or
comes from the indentation — or is a vertical tab, if a string, a key or a replacement string contains one. -/
theorem C11_default_partial (E : Env) (S : SortFn) (v : V) (opts : List MOpt) (b : Bytes) (vt : Prop) (hv : Marshalable v)
    (hu : lastSet setsUTF8 opts false = false) (hh : lastSet setsHTML opts true = true)
    (hn : Her (NumTexts (fun t => ∀ c ∈ t, NumChar c) (fun s => vt ∨ 0xB ∉ s)) v)
    (hf : ∀ f, isValidFloat f = true → ∀ c ∈ E.jsonFloat f, NumChar c)
    (ho : vt ∨ (0xB ∉ (combineOptions emptyOptions opts).nanToString ∧ 0xB ∉ (combineOptions emptyOptions opts).infPos ∧ 0xB ∉ (combineOptions emptyOptions opts).infNeg))
    (h : marshal E S emptyOptions v opts = .ok (b, none)) :
    ∀ c ∈ b, (0x20 ≤ c.toNat ∧ c.toNat < 0x7F ∧ c ≠ 0x3C ∧ c ≠ 0x3E ∧ c ≠ 0x26) ∨ (vt ∧ c = 0xB) ∨
      ∃ p i, lastSet setsIndent opts none = some (p, i) ∧ (c = 0x0A ∨ c ∈ p ∨ c ∈ i) := by
  have hind : (optOf emptyOptions opts).indent = lastSet setsIndent opts none := set_indent opts
  refine text_closing (Q := fun t => ∀ c ∈ t, _) (P := fun s => vt ∨ 0xB ∉ s) (closing_bytes _) ?_ ?_ ?_ ?_ ?_ hv ?_ h
  · refine ⟨?_, ?_, ?_, ?_, ?_, ?_, ?_, ?_⟩
    · simp
    · simp
    · simp
    · simp
    · simp
    · simp
    · simp
    · intro p i hpi
      rw [hind] at hpi
      refine ⟨fun c hc => .inr (.inr ⟨p, i, hpi, ?_⟩), fun c hc => .inr (.inr ⟨p, i, hpi, ?_⟩), fun c hc => .inr (.inr ⟨p, i, hpi, ?_⟩), by simp⟩
      · exact .inl (by simpa using hc)
      · exact .inr (.inl hc)
      · exact .inr (.inr hc)
  · refine ⟨?_, ?_, ?_, ?_, ?_, ?_⟩ <;> (intro c hc; left; revert c; decide)
  · intro s hs
    have h1 : escHas (opts.foldl MOpt.mergeTo emptyOptions).escProps escapeUTF8 = lastSet setsUTF8 opts false := set_utf8 opts
    have h2 : (!escHas (opts.foldl MOpt.mergeTo emptyOptions).escProps escapeWithoutHTML) = lastSet setsHTML opts true := set_html opts
    have e := escText_spec (opts.foldl MOpt.mergeTo emptyOptions).escProps (Decodes_runes s)
    rw [h1, h2, hu, hh] at e
    intro c hc
    have hc : c ∈ escText (parseEscapingFuncs (opts.foldl MOpt.mergeTo emptyOptions).escProps) s := hc
    rw [e] at hc
    obtain ⟨r, hr, hc⟩ := List.mem_flatMap.1 hc
    have := escSpec_ascii _ _ ((Decodes_runes s).scalar r hr) c hc
    rcases this.1 with h3 | h3
    · exact .inl ⟨h3.1, h3.2, this.2 rfl⟩
    · subst h3
      refine .inr (.inl ⟨?_, rfl⟩)
      rcases hs with hs | hs
      · exact hs
      · exfalso
        by_cases hrv : r = 0xB
        · subst hrv; exact hs (mem_runes_vt (Decodes_runes s) hr)
        · by_cases hr8 : r < 0x80
          · have : ∀ sl, ∀ r, r < 0x80 → r ≠ 0xB → (0xB : UInt8) ∉ escSpec false true sl r := by decide +kernel
            exact this _ r hr8 hrv hc
          · have hsc := (Decodes_runes s).scalar r hr
            have hr' : r < 0x110000 := by unfold Scalar at hsc; omega
            rw [escSpec_high _ _ _ hr8, if_neg (by simp)] at hc
            have hx : ∀ u, u < 0x10000 → (0xB : UInt8) ∉ uText u := fun u hu hm => by
              have := (uText_vis hu _ hm).1.1
              exact absurd this (by decide)
            split at hc
            · exact hx _ (by assumption) hc
            · rcases List.mem_append.1 hc with hc | hc
              · exact hx _ (by omega) hc
              · exact hx _ (by omega) hc
  · rcases ho with ho | ⟨h1, h2, h3⟩
    · exact ⟨.inl ho, .inl ho, .inl ho⟩
    · refine ⟨.inr h1, .inr h2, .inr ?_⟩
      unfold infNegString
      split
      · exact h3
      split
      · intro hm
        rcases List.mem_cons.1 hm with h | h
        · exact absurd h (by decide)
        · exact h2 ((List.dropWhile_sublist _).subset h)
      · decide
  · intro f hfv c hc; exact .inl (numChar_plain (hf f hfv c hc))
  · intro l w hw
    have := hn l w hw
    cases w with
    | num src n => exact fun c hc => .inl (numChar_plain (this c hc))
    | _ => exact this

/-- A vertical tab in a string is written as it is. -/
theorem C11_counterexample : ¬ C11_default_statement := by
  intro h
  exact absurd (h sampleEnv insertionSort (.str [0xB]) [0x22, 0xB, 0x22] insertionSort_good (.scalar _ trivial (.str _)) (by decide +kernel) 0xB (by decide)) (by decide)

/-- With OptUTF8 the output is valid UTF-8 without U+2028 and U+2029, whatever bytes strings and keys hold and whatever the other options say
(the indentation itself being of this kind). -/
theorem C11_utf8 (E : Env) (S : SortFn) (v : V) (opts : List MOpt) (b : Bytes) (hv : Marshalable v) (hu : lastSet setsUTF8 opts false = true)
    (hn : Her (NumTexts (fun t => ∀ c ∈ t, NumChar c) (fun _ => True)) v) (hf : ∀ f, isValidFloat f = true → ∀ c ∈ E.jsonFloat f, NumChar c)
    (hi : ∀ p i, lastSet setsIndent opts none = some (p, i) → CodeText (fun r => r ≠ 0x2028 ∧ r ≠ 0x2029) p ∧ CodeText (fun r => r ≠ 0x2028 ∧ r ≠ 0x2029) i)
    (h : marshal E S emptyOptions v opts = .ok (b, none)) :
    ∃ rs : List Nat, (∀ r ∈ rs, Scalar r ∧ r ≠ 0x2028 ∧ r ≠ 0x2029) ∧ b = rs.flatMap utf8 := by
  have hind : (optOf emptyOptions opts).indent = lastSet setsIndent opts none := set_indent opts
  have asciiT : ∀ t : Bytes, (∀ c ∈ t, c.toNat < 0x80) → CodeText (fun r => r ≠ 0x2028 ∧ r ≠ 0x2029) t := fun t ht => codeText_ascii fun c hc => by
    have := ht c hc; omega
  have numT : ∀ t : Bytes, (∀ c ∈ t, NumChar c) → CodeText (fun r => r ≠ 0x2028 ∧ r ≠ 0x2029) t := fun t ht => asciiT t fun c hc => by
    have := (numChar_plain (ht c hc)).2.1; omega
  refine text_closing (Q := CodeText fun r => r ≠ 0x2028 ∧ r ≠ 0x2029) (P := fun _ => True) (closing_code _) ?_ ?_ ?_ ⟨trivial, trivial, trivial⟩ (fun f hfv => numT _ (hf f hfv)) hv ?_ h
  · refine ⟨asciiT _ (by decide), asciiT _ (by decide), asciiT _ (by decide), asciiT _ (by decide), asciiT _ (by decide), asciiT _ (by decide), asciiT _ (by decide), ?_⟩
    intro p i hpi
    rw [hind] at hpi
    exact ⟨asciiT _ (by decide), (hi p i hpi).1, (hi p i hpi).2, asciiT _ (by decide)⟩
  · refine ⟨asciiT _ (by decide), asciiT _ (by decide), asciiT _ (by decide), asciiT _ (by decide), asciiT _ (by decide), asciiT _ (by decide)⟩
  · intro s _
    have h1 : escHas (opts.foldl MOpt.mergeTo emptyOptions).escProps escapeUTF8 = lastSet setsUTF8 opts false := set_utf8 opts
    have e := escText_spec (opts.foldl MOpt.mergeTo emptyOptions).escProps (Decodes_runes s)
    rw [h1, hu] at e
    have : CodeText (fun r => r ≠ 0x2028 ∧ r ≠ 0x2029) (escText (parseEscapingFuncs (opts.foldl MOpt.mergeTo emptyOptions).escProps) s) := by
      rw [e]
      exact closing_flatMap (closing_code _) _ fun r hr => escSpec_code _ _ ((Decodes_runes s).scalar r hr)
    exact this
  · intro l w hw
    have := hn l w hw
    cases w with
    | num src n => exact numT _ this
    | _ => exact this

-- U+2028 under OptUTF8, next to a character that is written as it is
example : marshal sampleEnv insertionSort emptyOptions (.str [0xE2, 0x80, 0xA8, 0xC3, 0xA9]) [.utf8] = .ok (asc "\"\\u2028" ++ [0xC3, 0xA9, 0x22], none) := by decide +kernel

/-! ### C12 -/

/-- A special number is one that JSON cannot express. -/
def HasSpecial (v : V) : Prop := ∃ l src n s, v.at l = some (.num src n) ∧ special src n = some s

/-- C12, first half, as stated. False: see `C12_counterexample`. -/
def C12_statement : Prop := ∀ (E : Env) (S : SortFn) (v : V), GoodSort S → Built E (ApiScalar E) v → HasSpecial v →
  ∃ e, marshal E S emptyOptions v [] = .ok ([], some e)

/-- Marshal of a number itself, for all options: an error is reported exactly if the options in force give an error for it; otherwise what
is written is what they give. -/
theorem C12_top_level_partial (E : Env) (S : SortFn) (d : Opt) (opts : List MOpt) (src : Bytes) (n : Num) :
    (special src n = none → marshal E S d (.num src n) opts = .ok (src, none)) ∧
    (∀ s e, special src n = some s → Replace E (combineOptions d opts) s (.inr e) → marshal E S d (.num src n) opts = .ok ([], some e)) ∧
    (∀ s, special src n = some s → (∀ e, ¬ Replace E (combineOptions d opts) s (.inr e)) → ∃ b, marshal E S d (.num src n) opts = .ok (b, none)) := by
  have hm : Marshalable (.num src n) := marshalable_scalar (v := .num src n) trivial (by simp) (by simp)
  refine ⟨fun h => marshal_num E S d opts n (by rintro rfl; unfold special at h; (repeat' split at h) <;> simp_all), ?_, ?_⟩
  · intro s e hs hr
    rw [marshal_eq d hm]
    have : errOf (optOf d opts) (.num src n) = some e := by
      simp only [errOf, hs]
      change Replace E (optOf d opts) s (.inr e) at hr
      generalize optOf d opts = o at *
      cases hr <;> rename_i h1 <;> simp only [specErr] <;> (try (rename_i h2; cases s <;> simp_all)) <;> simp_all
    rw [this]
  · intro s hs hr
    rw [marshal_eq d hm]
    have : errOf (optOf d opts) (.num src n) = none := by
      simp only [errOf, hs]
      change ∀ e, ¬ Replace E (optOf d opts) s (.inr e) at hr
      generalize optOf d opts = o at *
      cases hn : specErr o s with
      | none => rfl
      | some e =>
        exfalso
        apply hr e
        cases s <;> simp only [specErr] at hn <;> (repeat' split at hn) <;> simp at hn <;> subst hn
        · exact .nanFloatBad (by assumption) (by simp_all)
        · exact .nanErr (by assumption) (by assumption) (by assumption)
        · exact .infFloatBad _ (by simp) (by assumption) (by simp_all)
        · exact .infErr _ (by simp) (by assumption) (by assumption) (by assumption)
        · exact .infFloatBad _ (by simp) (by assumption) (by simp_all)
        · exact .infErr _ (by simp) (by assumption) (by assumption) (by assumption)
    rw [this]
    exact ⟨_, rfl⟩

/-- With default options NaN and the infinities are errors, and there is no other special number. -/
theorem C12_default_error (E : Env) (s : Special) : Replace E (combineOptions emptyOptions []) s (.inr .unsupportedFloat) := by
  cases s
  · exact .nanErr (by decide) (by decide) (by decide)
  · exact .infErr _ (by simp) (by decide) (by decide) (by decide)
  · exact .infErr _ (by simp) (by decide) (by decide) (by decide)

/-- `NewFloat64(f)` is special exactly for NaN and infinite `f`. -/
theorem C12_special_iff (E : Env) (fmt : Bytes) (f : BitVec 64) (hne : fmt ≠ []) :
    ∀ src n, newFloat64f E fmt f = .num src n → (special src n = none ↔ isValidFloat f = true) ∧ (special src n = some .nan ↔ isNaN f = true) ∧
      (special src n = some .infP ↔ isInfP f = true) ∧ (special src n = some .infN ↔ isInfN f = true) := by
  intro src n h
  unfold newFloat64f at h
  cases h
  have hp : isInfP f = true → isNaN f = false ∧ isInfN f = false := by unfold isInfP; intro h; rw [eq_of_beq h]; decide
  have hq : isInfN f = true → isNaN f = false ∧ isInfP f = false := by unfold isInfN; intro h; rw [eq_of_beq h]; decide
  unfold special isValidFloat
  cases hn : isNaN f <;> cases h1 : isInfP f <;> cases h2 : isInfN f <;> simp_all

/-- Whatever the options, a container never reports an error: every object and every array without nil pointers marshals with a nil error, also if it contains
NaN and no replacement is configured. -/
theorem C12_containers_never_fail (E : Env) (S : SortFn) (d : Opt) (v : V) (opts : List MOpt) (hv : Marshalable v) (hc : ∀ src n, v ≠ .num src n) :
    ∃ b, marshal E S d v opts = .ok (b, none) := by
  rw [marshal_eq d hv]
  cases v <;> first | exact ⟨_, rfl⟩ | exact absurd rfl (hc _ _)

theorem C12_counterexample : ¬ C12_statement := by
  intro h
  obtain ⟨e, he⟩ := h sampleEnv insertionSort (append sampleEnv false newArray { c := newFloat64f sampleEnv [] 0x7FF8000000000000#64 } []).1 insertionSort_good
    (.append _ _ _ _ .array (.scalar _ trivial (.float _ _ fun h => absurd h (by decide))))
    ⟨[.idx 0], [], { negative := false, floated := false, f64 := 0x7FF8000000000000#64, i64 := 1, u64 := 1 }, .nan, by decide +kernel, rfl⟩
  have : marshal sampleEnv insertionSort emptyOptions (append sampleEnv false newArray { c := newFloat64f sampleEnv [] 0x7FF8000000000000#64 } []).1 [] = .ok (asc "[]", none) := by decide +kernel
  rw [this] at he
  cases he

/-- Replacement at any depth: if the options give a replacement for every special number that occurs, what Unmarshal reads from the output
shows the replacement wherever the number stands (and everything else as it is). -/
theorem C12_replaced (E : Env) (S : SortFn) (d : Opt) (v : V) (opts : List MOpt) (b : Bytes) (hS : GoodSort S) (hv : Marshalable v)
    (hp : Her (Printable E (combineOptions d opts) (Reads E) (fun _ => True)) v) (hi : BlankIndent (combineOptions d opts).indent)
    (h : marshal E S d v opts = .ok (b, none)) :
    ∃ j w, Shows E (combineOptions d opts) (fun _ _ _ => True) [] v j ∧ goUnmarshal E b = .ok (b, w, none) ∧
      Denotes E (fun t n => unmarshal E t = .ok (.num t n)) j w := by
  obtain ⟨j, h1, h2⟩ := marshal_lenient hS d hv hp hi h
  obtain ⟨w, h3, h4⟩ := read_back h1
  exact ⟨j, w, shows_mono (fun _ _ _ _ => trivial) h2, h3, h4⟩

-- NaN inside an object, replaced by a string; -Inf by a float
example : marshal sampleEnv insertionSort emptyOptions (.obj 1 [⟨asc "a", 1, .arr [newFloat64f sampleEnv [] 0x7FF8000000000000#64, newFloat64f sampleEnv [] 0xFFF0000000000000#64]⟩] none)
    [.nanString (asc "n/a"), .infFloat 0x3FF8000000000000#64] = .ok (asc "{\"a\":[\"n\\/a\",1.5]}", none) := by decide +kernel

/-! ### C13 -/

/-- C13 for standard decoders. False: see `C13_counterexample`. -/
def C13_standard_statement : Prop := ∀ (E : Env) (S : SortFn) (d : Opt) (v : V) (opts : List MOpt) (b : Bytes), GoodSort S → Marshalable v →
  Her (Printable E (combineOptions d opts) JNum (fun s => 0xB ∉ s)) v → WsIndent (combineOptions d opts).indent → (combineOptions d opts).omitNull = true →
  marshal E S d v opts = .ok (b, none) → ∃ j, JText b j ∧ Shows E { combineOptions d opts with omitNull := false } (fun _ _ _ => True) [] (prune v) j

/-- With OptOmitNull in force, what Unmarshal reads from the output shows exactly the value without the null members of its objects, at every
depth: array elements and all else are kept. (`prune v` without the option.) -/
theorem C13_omit_null_partial (E : Env) (S : SortFn) (d : Opt) (v : V) (opts : List MOpt) (b : Bytes) (hS : GoodSort S) (hv : Marshalable v)
    (hp : Her (Printable E (combineOptions d opts) (Reads E) (fun _ => True)) v) (hi : BlankIndent (combineOptions d opts).indent)
    (ho : (combineOptions d opts).omitNull = true) (h : marshal E S d v opts = .ok (b, none)) :
    ∃ j w, Shows E { combineOptions d opts with omitNull := false } (fun _ _ _ => True) [] (prune v) j ∧ goUnmarshal E b = .ok (b, w, none) ∧
      Denotes E (fun t n => unmarshal E t = .ok (.num t n)) j w := by
  obtain ⟨j, w, h1, h2, h3⟩ := C12_replaced E S d v opts b hS hv hp hi h
  exact ⟨j, w, shows_prune ho h1, h2, h3⟩

/-- Without null members the standard statement holds. -/
theorem C13_standard_partial (E : Env) (S : SortFn) (d : Opt) (v : V) (opts : List MOpt) (b : Bytes) (hS : GoodSort S) (hv : Marshalable v)
    (hp : Her (Printable E (combineOptions d opts) JNum (fun s => 0xB ∉ s)) v) (hi : WsIndent (combineOptions d opts).indent)
    (ho : (combineOptions d opts).omitNull = true) (hn : Her (NothingOmitted (combineOptions d opts)) v) (h : marshal E S d v opts = .ok (b, none)) :
    ∃ j, JText b j ∧ Shows E { combineOptions d opts with omitNull := false } (fun _ _ _ => True) [] (prune v) j := by
  obtain ⟨j, h1, h2⟩ := C10_valid_json_partial E S d v opts b hS hv hp hn hi h
  exact ⟨j, h1, shows_prune ho h2⟩

/-- `prune` removes the null members and no others, and leaves no null member. -/
theorem C13_prune (v : V) (l : List Step) (k : Bytes) (hk : Her KeysNodup v) :
    ((prune v).at (l ++ [.key k]) ≠ some .null) ∧
    (∀ c, v.at [.key k] = some c → c ≠ .null → (prune v).at [.key k] = some (prune c)) ∧
    (∀ i c, v.at [.idx i] = some c → (prune v).at [.idx i] = some (prune c)) ∧
    (v.at [.key k] = none → (prune v).at [.key k] = none) := by
  refine ⟨?_, ?_, ?_, ?_⟩
  · induction l generalizing v with
    | nil =>
      rw [List.nil_append, at_one, prune_child_key k (her_self hk)]
      cases v.child (.key k) with
      | none => simp
      | some c => simp only [Option.bind_some]; cases c <;> simp [isNullV, prune]
    | cons s l ih =>
      rw [List.cons_append, V.at]
      have step : ∀ c, v.child s = some c → (prune c).at (l ++ [.key k]) ≠ some .null := fun c hc => ih c fun l' w hw => hk (s :: l') w (by simp [V.at, hc, hw])
      cases s with
      | key k' =>
        rw [prune_child_key k' (her_self hk)]
        cases hc : v.child (.key k') with
        | none => simp
        | some c =>
          simp only [Option.bind_some]
          by_cases hn : isNullV c = true
          · rw [if_pos hn]; simp
          · rw [if_neg hn]; exact step c hc
      | idx i =>
        rw [prune_child_idx]
        cases hc : v.child (.idx i) with
        | none => simp
        | some c => exact step c hc
  · intro c hc hne
    rw [at_one] at hc ⊢
    rw [prune_child_key k (her_self hk), hc, Option.bind_some, if_neg]
    cases c <;> simp_all [isNullV]
  · intro i c hc
    rw [at_one] at hc ⊢
    rw [prune_child_idx, hc]; rfl
  · intro hc
    rw [at_one] at hc ⊢
    rw [prune_child_key k (her_self hk), hc]; rfl

/-- `{"a":true,"b":null,"c":false}` -/
def sampleNull : V := .obj 3 [⟨asc "a", 1, .bool true⟩, ⟨asc "b", 2, .null⟩, ⟨asc "c", 3, .bool false⟩] none

theorem sampleNull_her {P : V → Prop} (h : P sampleNull) (h1 : ∀ b, P (.bool b)) (h2 : P .null) : Her P sampleNull := by
  refine her_of_kids h ?_
  rintro c ⟨e, he, rfl⟩
  simp only [List.mem_cons, List.not_mem_nil, or_false] at he
  rcases he with rfl | rfl | rfl
  · exact her_leaf (h1 _) trivial
  · exact her_leaf h2 trivial
  · exact her_leaf (h1 _) trivial

/-- With OptOmitNull this is written `{"a":true"c":false}`. -/
theorem C13_counterexample : ¬ C13_standard_statement := by
  intro h
  obtain ⟨j, hj, -⟩ := h sampleEnv insertionSort emptyOptions sampleNull [.omitNull true] (asc "{\"a\":true\"c\":false}") insertionSort_good
    ⟨sampleNull_her (by unfold KeysNodup sampleNull; decide +kernel) (fun _ => trivial) trivial, noNil_her (sampleNull_her (by simp [sampleNull]) (by simp) (by simp)), by simp [sampleNull]⟩
    (sampleNull_her (by unfold Printable sampleNull; decide +kernel) (fun _ => trivial) trivial) trivial rfl (by decide +kernel)
  exact not_json (by decide +kernel) ⟨_, hj⟩

-- the library reads it back
example : ∃ w, goUnmarshal sampleEnv (asc "{\"a\":true\"c\":false}") = .ok (asc "{\"a\":true\"c\":false}", w, none) := ⟨.obj 2 [⟨asc "a", 1, .bool true⟩, ⟨asc "c", 2, .bool false⟩] none, by decide +kernel⟩
example : prune sampleNull = .obj 3 [⟨asc "a", 1, .bool true⟩, ⟨asc "c", 3, .bool false⟩] none := by decide +kernel

/-! ### C18 -/

/-- OptIndent changes layout only. For every value and every list of options without indentation there is one sequence of tokens, with one
token list per non-empty container and single tokens for everything else, such that Marshal writes it on one line without OptIndent, and
laid out by `Doc.print` with it: each element or member on a line of its own that starts with the prefix and one indent per level, closing
brackets one level less, wherever in the value they are. -/
theorem C18_indent (E : Env) (S : SortFn) (d : Opt) (v : V) (opts : List MOpt) (hS : GoodSort S) (hv : Marshalable v) (hi : (combineOptions d opts).indent = none)
    (b : Bytes) (h : marshal E S d v opts = .ok (b, none)) :
    ∃ t, Lays (combineOptions d opts) AnyOrder (fun _ _ => True) [] v t ∧ b = t.print none 0 ∧
      ∀ p i, marshal E S d v (opts ++ [.indent p i]) = .ok (t.print (some (p, i)) 0, none) := by
  obtain ⟨he, rfl⟩ := marshal_ok hv h
  refine ⟨doc E S (optOf d opts) (escOf d opts) v none, doc_lays hS (fun _ => trivial) v (fun _ _ _ _ _ _ _ _ => trivial) v hv.1 hv.2.1 [] rfl none fun _ => ⟨infoAt_root, parentAt_root v⟩, ?_, ?_⟩
  · unfold textOf
    rw [show (optOf d opts).indent = none from hi]
  · intro p i
    have ho : optOf d (opts ++ [.indent p i]) = { optOf d opts with indent := some (p, i) } := by
      unfold optOf combineOptions Opt.combineFrom
      simp only [List.foldl_append, List.foldl_cons, List.foldl_nil, MOpt.mergeTo]
    rw [marshal_eq d hv]
    have hee : errOf (optOf d (opts ++ [.indent p i])) v = errOf (optOf d opts) v := by
      rw [ho]; cases v <;> first | rfl | (simp only [errOf]; cases special _ _ with | none => rfl | some s => cases s <;> rfl)
    rw [hee, he]
    simp only
    unfold textOf
    rw [ho, doc_indent]
    have : escOf d (opts ++ [.indent p i]) = escOf d opts := by
      unfold escOf; rw [ho]
    rw [this]

/-- The error reported does not depend on indentation either. -/
theorem C18_same_error (E : Env) (S : SortFn) (d : Opt) (v : V) (opts : List MOpt) (p i : Bytes) (hv : Marshalable v) (e : Err) :
    marshal E S d v opts = .ok ([], some e) ↔ marshal E S d v (opts ++ [.indent p i]) = .ok ([], some e) := by
  have ho : optOf d (opts ++ [.indent p i]) = { optOf d opts with indent := some (p, i) } := by
    unfold optOf combineOptions Opt.combineFrom
    simp only [List.foldl_append, List.foldl_cons, List.foldl_nil, MOpt.mergeTo]
  have hee : errOf (optOf d (opts ++ [.indent p i])) v = errOf (optOf d opts) v := by
    rw [ho]; cases v <;> first | rfl | (simp only [errOf]; cases special _ _ with | none => rfl | some s => cases s <;> rfl)
  rw [marshal_eq d hv, marshal_eq d hv, hee]
  cases errOf (optOf d opts) v <;> simp

-- prefix and indent, nested and empty containers
example : marshal sampleEnv insertionSort emptyOptions (.arr [.arr [], .obj 1 [⟨asc "a", 1, .arr [.null]⟩] none, .obj 0 [] none]) [.indent (asc ">") (asc "--")] =
    .ok (asc "[\n>--[],\n>--{\n>----\"a\": [\n>------null\n>----]\n>--},\n>--{}\n>]", none) := by decide +kernel

end JV
