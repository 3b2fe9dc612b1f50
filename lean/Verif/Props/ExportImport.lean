import Verif.Proofs.ExportImport
import Verif.Props.Export
import Verif.Props.FewDigits
/-!
C87: Export and Import undo each other.
-/
namespace JV
open Spec

/-- C87 as stated: false, see the counterexample. -/
def C87_statement : Prop := ∀ (E : Env), Ieee E → ∀ (O : DigitFn), GoDigits O → ∀ (S : SortFn) (dec : AnyDec), GoodSort S → GoodDec E.parseFloat dec →
  ∀ (s x : Bytes) (v : V) (g : AnyVal), goUnmarshal E s = .ok (x, v, none) → exportAny E S emptyOptions dec v = .ok g →
  ∃ w, goImport E S (newFloatText O) false (anyGo g) = .ok (w, none) ∧ equal newFromString v w = true

/-- Import takes all data made of nil, bool, finite float64, string, []interface{} and map[string]interface{}, with or without the option OptIgnoreOmitempty, and gives the value for it. -/
theorem C87_import (E : Env) (S : SortFn) (F : FloatText) (ig : Bool) (P : Bytes → Prop) (g : AnyVal) (h : AnyOK P g) :
    ∃ w, goImport E S F ig (anyGo g) = .ok (w, none) ∧ FromAny (F false) g w := by
  obtain ⟨w, h1, h2⟩ := import_any (E := E) (S := S) (F := F) g { ignoreOmitempty := ig } .no (by cases ig <;> rfl) rfl h
  exact ⟨w, by unfold goImport; rw [h1], h2⟩

/-- Export and then Import gives an Equal value if and only if every number in the value is the number that NewFloat64 writes for the float64 nearest to it. The hypotheses
are those of C64. -/
theorem C87_partial (E : Env) (hE : Ieee E) (O : DigitFn) (hO : GoDigits O) (S : SortFn) (hS : GoodSort S) (d : Opt) (dec : AnyDec) (hd : GoodDec E.parseFloat dec) (ig : Bool) (v : V)
    (hk : Her KeysNodup v) (hp : Her (Exportable E.parseFloat) v) (hn : Her (NothingOmitted (combineOptions d [])) v) (hi : WsIndent (combineOptions d []).indent)
    (hdeep : Nests maxNesting v) (hs : Her (ShortNum) v) :
    ∃ g w, exportAny E S d dec v = .ok g ∧ goImport E S (newFloatText O) ig (anyGo g) = .ok (w, none) ∧
      (equal newFromString v w = true ↔ Her (NumKept E.parseFloat (newFloatText O false)) v) := by
  obtain ⟨g, h1, h2⟩ := C64_any_partial E S d dec v hS hd hk hp hn hi hdeep
  have hfin : ∀ src n, Exportable E.parseFloat (.num src n) → ShortNum (.num src n) → ∀ f, E.parseFloat src = some f → magnitude f < double.inf := by
    intro src n h3 h4 f hf
    obtain ⟨q, hq⟩ := jnum_value h3.1
    obtain ⟨b, h5, h6⟩ := hE.parse _ _ hq h4.1
    rw [hf] at h6
    split at h6
    · cases h6
    · rename_i hb
      have := h5.1
      have h63 : b < 2 ^ 63 := by have := inf_lt63; omega
      obtain ⟨hmag, -⟩ := magnitude_pack (neg := src.head? == some 0x2D) h63
      cases h6
      omega
  have hok : AnyOK (fun _ => True) g := by
    refine exported_ok h2 (fun l c hc => ?_) hk
    have h3 := hp l c hc
    have h4 := hs l c hc
    cases c with
    | num src n => exact hfin src n h3 h4
    | _ => trivial
  obtain ⟨w, h3, h4⟩ := C87_import E S (newFloatText O) ig _ g hok
  refine ⟨g, w, h1, h3, ?_⟩
  rw [equal_iff newFromString v w hk (fromAny_keys h4), exported_equal hk h2 h4]
  have key : ∀ src n, Exportable E.parseFloat (.num src n) → ShortNum (.num src n) → ∀ f, E.parseFloat src = some f →
      (valOf newFromString src = valOf newFromString (newFloatText O false f) ↔ ∀ q, TextValue src q → TextValue (newFloatText O false f) q) := by
    intro src n h5 h6 f hf
    obtain ⟨q, hq⟩ := jnum_value h5.1
    have hsh := shortest_double hO (hfin src n h5 h6 f hf)
    have hlen := floatText_len hsh
    have hv := (C60_value O false f hsh).2
    have e := C51_by_value_partial src (newFloatText O false f) default default q _ hq hv (smallExp_of_short h6.1 h6.2) (smallExp_of_short (floatText_shortExp hsh) (by omega))
    have e' : equal newFromString (.num src default) (.num (newFloatText O false f) default) = true ↔ _ := numberEqual_iff newFromString src (newFloatText O false f)
    rw [← e', e.1]
    constructor
    · rintro h q' hq'
      rw [textValue_unique hq' hq, h]
      exact hv
    · exact fun h => textValue_unique (h q hq) hv
  constructor
  · intro h l c hc
    have h3 := hp l c hc
    have h4 := hs l c hc
    have h5 := h l c hc
    cases c with
    | num src n => exact fun f q hf hq => (key src n h3 h4 f hf).1 (h5 f hf) q hq
    | _ => trivial
  · intro h l c hc
    have h3 := hp l c hc
    have h4 := hs l c hc
    have h5 := h l c hc
    cases c with
    | num src n => exact fun f hf => (key src n h3 h4 f hf).2 fun q hq => h5 f q hf hq
    | _ => trivial

/-- So it does if all numbers have at most 15 significant digits and are 0 or not below 2^-1022. -/
theorem C87_fifteen (E : Env) (hE : Ieee E) (O : DigitFn) (hO : GoDigits O) (S : SortFn) (hS : GoodSort S) (d : Opt) (dec : AnyDec) (hd : GoodDec E.parseFloat dec) (ig : Bool) (v : V)
    (hk : Her KeysNodup v) (hp : Her (Exportable E.parseFloat) v) (hn : Her (NothingOmitted (combineOptions d [])) v) (hi : WsIndent (combineOptions d []).indent)
    (hdeep : Nests maxNesting v) (hs : Her (ShortNum) v)
    (h15 : ∀ l src n q, v.at l = some (.num src n) → TextValue src q → FewDigits 15 q ∧ (q = 0 ∨ (2 : Rat) ^ (-1022 : Int) ≤ q.abs)) :
    ∃ g w, exportAny E S d dec v = .ok g ∧ goImport E S (newFloatText O) ig (anyGo g) = .ok (w, none) ∧ equal newFromString v w = true := by
  obtain ⟨g, w, h1, h2, h3⟩ := C87_partial E hE O hO S hS d dec hd ig v hk hp hn hi hdeep hs
  refine ⟨g, w, h1, h2, h3.2 fun l c hc => ?_⟩
  have h4 := hs l c hc
  cases c with
  | num src n =>
    intro f q hf hq
    obtain ⟨h5, h6⟩ := h15 l src n q hc hq
    obtain ⟨b, h7, h8⟩ := hE.parse _ _ hq h4.1
    rw [hf] at h8
    split at h8
    · cases h8
    · rename_i hb
      have := h7.1
      cases h8
      exact few_kept hO hq (by omega) h7 h5 h6
  | _ => trivial

/-- Import and then Export gives the same data, if strings and keys are valid UTF-8 without U+000B, slices and maps nest at most 10000 deep, and the default options leave nothing
out and indent with white space. -/
theorem C87_back (E : Env) (hE : Ieee E) (O : DigitFn) (hO : GoDigits O) (S : SortFn) (hS : GoodSort S) (d : Opt) (dec : AnyDec) (hd : GoodDec E.parseFloat dec) (ig : Bool) (g : AnyVal)
    (hg : AnyOK (fun s => ValidUTF8 s ∧ 0xB ∉ s) g) (hdeep : AnyNests maxNesting g) (ho : (combineOptions d []).omitNull = false) (hi : WsIndent (combineOptions d []).indent) :
    ∃ w g', goImport E S (newFloatText O) ig (anyGo g) = .ok (w, none) ∧ exportAny E S d dec w = .ok g' ∧ AnySame g g' := by
  obtain ⟨w, h1, h2⟩ := C87_import E S (newFloatText O) ig _ g hg
  have hp : Her (Exportable E.parseFloat) w := fromAny_exportable (fun f hf => ⟨(C60_value O false f (shortest_double hO hf)).1, by rw [parse_floatText hE hO hf]; simp⟩) hg h2
  have hn : Her (NothingOmitted (combineOptions d [])) w := fun l c hc => by cases c <;> simp [NothingOmitted, ho]
  obtain ⟨g', h3, h4⟩ := C64_any_partial E S d dec w hS hd (fromAny_keys h2) hp hn hi (fromAny_nests h2 _ hdeep)
  exact ⟨w, g', h1, h3, fromAny_exported (fun f hf => parse_floatText hE hO hf) hg h2 h4⟩

/-! ### concrete cases -/

-- {"a": [-1.5, null]} as interface{} data
example : AnyOK (fun s => ValidUTF8 s ∧ 0xB ∉ s) (.map [(asc "a", .slice [.flt 0xBFF8000000000000#64, .nil])]) ∧
    AnyNests maxNesting (.map [(asc "a", .slice [.flt 0xBFF8000000000000#64, .nil])]) := by
  constructor
  · refine .map _ (by decide +kernel) (fun p hp => ?_) (fun p hp => ?_)
    · obtain rfl := List.mem_singleton.1 hp
      exact ⟨⟨[0x61], by decide, by decide⟩, by decide⟩
    · obtain rfl := List.mem_singleton.1 hp
      refine .slice _ fun g hg => ?_
      have : g = .flt 0xBFF8000000000000#64 ∨ g = .nil := by simpa using hg
      rcases this with rfl | rfl
      · exact .flt _ (by decide)
      · exact .nil
  · refine .map 9999 _ fun p hp => ?_
    obtain rfl := List.mem_singleton.1 hp
    refine .slice 9998 _ fun g hg => ?_
    have : g = .flt 0xBFF8000000000000#64 ∨ g = .nil := by simpa using hg
    rcases this with rfl | rfl
    · exact .flt _ _
    · exact .nil _

theorem lit_half_jnum : JNum (asc "-1.5") := .inr ⟨true, asc "1", asc ".5", [], .inr ⟨0x31, [], by decide +kernel, by decide, by decide, by simp [Digits]⟩,
  .inr ⟨asc "5", by decide +kernel, by decide +kernel, digits_of (by decide +kernel)⟩, .inl rfl, by decide +kernel, by decide +kernel⟩

theorem num_parses {E : Env} (hE : Ieee E) {t : Bytes} {q : Rat} {b : Nat} (hs : ShortExp t) (hq : TextValue t q) (hn : Nearest double q.abs b) (hb : b < double.inf) :
    E.parseFloat t = some (pack (t.head? == some 0x2D) b) := by
  obtain ⟨c, h1, h2⟩ := hE.parse _ _ hq hs
  rw [nearest_unique h1 hn, if_neg (by omega)] at h2
  exact h2

-- [-1.5] survives
example (E : Env) (hE : Ieee E) (O : DigitFn) (hO : GoDigits O) (S : SortFn) (hS : GoodSort S) (dec : AnyDec) (hd : GoodDec E.parseFloat dec) (n : Num) :
    ∃ g w, exportAny E S emptyOptions dec (.arr [.num (asc "-1.5") n]) = .ok g ∧ goImport E S (newFloatText O) false (anyGo g) = .ok (w, none) ∧
      equal newFromString (.arr [.num (asc "-1.5") n]) w = true := by
  obtain ⟨h1, h2, -⟩ := lit_half hE
  have e : double.val 0x3FF8000000000000 = (-3 / 2 : Rat).abs := by decide +kernel
  have hpf := num_parses hE h1 h2 (e ▸ nearest_self (by decide)) (by decide)
  have her : ∀ {P : V → Prop}, P (.arr [.num (asc "-1.5") n]) → P (.num (asc "-1.5") n) → Her P (.arr [.num (asc "-1.5") n]) := fun h h' =>
    her_of_kids h fun c hc => by
      obtain rfl := List.mem_singleton.1 (hc : c ∈ [_])
      exact her_leaf h' trivial
  refine C87_fifteen E hE O hO S hS _ dec hd false _ (her trivial trivial) (her trivial ⟨lit_half_jnum, by rw [hpf]; simp⟩) (her trivial trivial) trivial ?_
    (her trivial ⟨h1, by decide +kernel⟩) ?_
  · intro l c hc hs
    cases l with
    | nil => decide
    | cons s l =>
      exfalso
      have := her (P := fun c => c = .arr [.num (asc "-1.5") n] ∨ IsScalar c) (.inl rfl) (.inr trivial)
      rcases this (s :: l) c hc with rfl | h
      · simp only [V.at] at hc
        cases hs' : (V.arr [.num (asc "-1.5") n]).child s with
        | none => rw [hs'] at hc; cases hc
        | some d =>
          rw [hs'] at hc
          obtain rfl : d = .num (asc "-1.5") n := List.mem_singleton.1 (child_kid hs' : d ∈ [_])
          cases l with
          | nil => cases hc
          | cons s l => cases s <;> simp [V.at, V.child] at hc
      · exact hs h
  · intro l src m q hc hq
    have := her (P := fun c => match c with | .num src _ => src = asc "-1.5" | _ => True) trivial rfl l _ hc
    subst this
    rw [textValue_unique hq h2]
    exact ⟨⟨15, -1, by decide, by decide +kernel⟩, .inr (by decide +kernel)⟩

/-- Sixteen digits may be too many: `9007199254740993.0` comes back as 9007199254740992. -/
theorem C87_counterexample : ¬ C87_statement := by
  intro h
  obtain ⟨E, hE⟩ : ∃ E, Ieee E := ⟨_, ieeeEnv_ok sampleEnv⟩
  obtain ⟨dec, hdec⟩ := C64_decoder_exists E.parseFloat
  obtain ⟨n, f, hu, hf, hne⟩ := C86_sixteen E hE goDigitsFn goDigitsFn_ok
  obtain ⟨h1, h2, -, hu'⟩ := lit_big hE
  rw [hu] at hu'
  obtain rfl : n = numOf E (asc "9007199254740993.0") := by cases hu'; rfl
  have hj : JFloat false (asc "9007199254740993") (asc "9007199254740993.0") := ⟨asc ".0", [], .inr ⟨0x39, asc "007199254740993", by decide +kernel, by decide, by decide, digits_of (by decide +kernel)⟩,
    .inr ⟨asc "0", by decide +kernel, by decide +kernel, digits_of (by decide +kernel)⟩, .inl rfl, by decide +kernel, by decide +kernel⟩
  obtain ⟨b, h3, h4⟩ := hE.parse _ _ h2 h1
  have hb : b ≤ 0x4340000000000001 := nearest_le h3 (by decide) (by decide +kernel)
  have hbi : b < double.inf := Nat.lt_of_le_of_lt hb (by decide)
  rw [if_neg (by omega)] at h4
  have hz : ZerosOK (asc "9007199254740993") := zerosOK_of_lt (digits_of (by decide +kernel)) (by decide +kernel) fun c u h => by
    have := congrArg List.head? h
    rw [show (asc "9007199254740993").head? = some 0x39 by decide +kernel] at this
    simp at this
  have hnum := (jfloat_num hj hz h4).2
  obtain ⟨g, w, hg, hw, hk⟩ := C87_partial E hE goDigitsFn goDigitsFn_ok insertionSort insertionSort_good emptyOptions dec hdec false (.num (asc "9007199254740993.0") (numOf E (asc "9007199254740993.0")))
    (her_leaf trivial trivial) (her_leaf ⟨.inr ⟨_, _, hj⟩, by rw [h4]; simp⟩ trivial) (her_leaf trivial trivial) trivial
    (fun l c hc hs => by
      cases l with
      | nil => decide
      | cons s l => cases s <;> simp [V.at, V.child] at hc)
    (her_leaf ⟨h1, by decide +kernel⟩ trivial)
  obtain ⟨w', hw', he⟩ := h E hE goDigitsFn goDigitsFn_ok insertionSort dec insertionSort_good hdec _ _ _ g hu hg
  rw [hw] at hw'
  cases hw'
  have hkept := her_self (hk.1 he) _ _ h4 h2
  have hf' : f = pack ((asc "9007199254740993.0").head? == some 0x2D) b := by
    rw [hnum] at hf
    have e : float64 E (.num (asc "9007199254740993.0") (floatNum E (pack ((asc "9007199254740993.0").head? == some 0x2D) b))) = .ok (pack ((asc "9007199254740993.0").head? == some 0x2D) b) := rfl
    rw [e] at hf
    cases hf
    rfl
  subst hf'
  rw [← Bool.not_eq_true] at hne
  have h63 : b < 2 ^ 63 := by have := inf_lt63; omega
  obtain ⟨hmag, hmsb⟩ := magnitude_pack (neg := (asc "9007199254740993.0").head? == some 0x2D) h63
  have hfin : magnitude (pack ((asc "9007199254740993.0").head? == some 0x2D) b) < double.inf := by omega
  apply hne
  rw [equal_floatText E goDigitsFn_ok _ ((finite_iff _).2 hfin) h1 (by decide +kernel) h2]
  exact textValue_unique hkept (C60_value goDigitsFn false _ (shortest_double goDigitsFn_ok hfin)).2

/-- Import takes a string with a vertical tab; Export refuses the value. -/
theorem C87_vertical_tab (S : SortFn) (F : FloatText) (dec : AnyDec) (hdec : GoodDec sampleEnv.parseFloat dec) :
    goImport sampleEnv S F false (anyGo (.str [0xB])) = .ok (.str [0xB], none) ∧ exportAny sampleEnv insertionSort emptyOptions dec (.str [0xB]) = .err .other := by
  refine ⟨rfl, ?_⟩
  have hm : marshal sampleEnv insertionSort emptyOptions (.str [0xB]) [] = .ok ([0x22, 0xB, 0x22], none) := by decide +kernel
  have hno := dec_refuses hdec (s := [0x22, 0xB, 0x22]) vtab_quoted fun j hj => not_json (by decide +kernel) ⟨j, hj⟩
  unfold exportAny
  rw [hm]
  simp only [hno]

end JV
