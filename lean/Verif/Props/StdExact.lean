import Verif.Props.StdJson
import Verif.Props.Exact
/-!
Exactly when json.Marshal takes a value (C72) and when Export hands it over (C64).
-/
namespace JV
open Spec

/-- a value that Marshal refuses is not `JsonOK` -/
theorem refused_not_ok {E : Env} {S : SortFn} {d : Opt} {opts : List MOpt} {v : V} (hv : Marshalable v) {ord : List Step → List Ent → List Ent → Prop}
    (h : JsonOK E (combineOptions d opts) ord [] v) : ∃ b, marshal E S d v opts = .ok (b, none) := by
  by_cases hc : ∀ src n, v ≠ .num src n
  · exact C12_containers_never_fail E S d v opts hv hc
  · have : ∃ src n, v = .num src n := by
      apply Classical.byContradiction
      intro hx
      exact hc fun src n he => hx ⟨src, n, he⟩
    obtain ⟨src, n, rfl⟩ := this
    have ht := C12_top_level_partial E S d opts src n
    cases h with
    | num _ _ _ hsp _ => exact ⟨_, ht.1 hsp⟩
    | spec _ _ _ s j hsp hr _ _ =>
      refine ht.2.2 s hsp fun e he => ?_
      have : ∀ {a b : J ⊕ Err}, Replace E (combineOptions d opts) s a → Replace E (combineOptions d opts) s b → a.isLeft = b.isLeft := by
        intro a b h1 h2
        cases h1 <;> cases h2 <;> first | rfl | simp_all
      have := this hr he
      simp at this

/-- json.Marshal(v) succeeds exactly if what Marshal writes is JSON and arrays and objects nest at most 10000 deep. Any default options that indent with
white space. -/
theorem C72_exact_any (E : Env) (S : SortFn) (d : Opt) (valid : Bytes → Bool) (v : V) (b : Bytes) (hS : GoodSort S) (hvalid : GoodCheck valid)
    (hF : ∀ f, isValidFloat f = true → JNum (E.jsonFloat f)) (hv : Built E (ApiScalar E) v) (hi : WsIndent (combineOptions d []).indent)
    (h : marshal E S d v [] = .ok (b, none)) : (∃ t, jsonMarshal E S d valid v = .ok t) ↔ (∃ j, JText b j) ∧ Nests maxNesting v := by
  obtain ⟨hm, hn⟩ := api_marshalable hv
  have hq := marshal_quoted d hm hF hn hi h
  have h1 : (∃ t, jsonMarshal E S d valid v = .ok t) ↔ valid b = true := by
    rw [jsonMarshal_ok h]
    cases valid b <;> simp
  rw [h1, check_iff hvalid hq]
  constructor
  · rintro ⟨j, h2, h3⟩
    exact ⟨⟨j, h2⟩, ((marshal_shape hS d hm hF hn hi h h2 fun _ => True).1 _).1 h3⟩
  · rintro ⟨⟨j, h2⟩, h3⟩
    exact ⟨j, h2, ((marshal_shape hS d hm hF hn hi h h2 fun _ => True).1 _).2 h3⟩

/-- json.Marshal(v) succeeds exactly if no string or key has U+000B, every number has a JSON text or a replacement (or is the only element of an
array), and arrays and objects nest at most 10000 deep. -/
theorem C72_exact (E : Env) (S : SortFn) (d : Opt) (valid : Bytes → Bool) (v : V) (hS : GoodSort S) (hvalid : GoodCheck valid)
    (hF : ∀ f, isValidFloat f = true → JNum (E.jsonFloat f)) (hv : Built E (ApiScalar E) v) (hi : WsIndent (combineOptions d []).indent) (ho : (combineOptions d []).omitNull = false) :
    (∃ t, jsonMarshal E S d valid v = .ok t) ↔ JsonOK E (combineOptions d []) (fun _ _ _ => True) [] v ∧ Nests maxNesting v := by
  have hm := (api_marshalable hv).1
  constructor
  · rintro ⟨t, ht⟩
    have : ∃ b, marshal E S d v [] = .ok (b, none) := by
      rw [marshal_eq d hm]
      cases he : errOf (optOf d []) v with
      | none => exact ⟨_, rfl⟩
      | some e =>
        have := marshal_eq (E := E) (S := S) d hm (opts := [])
        rw [he] at this
        rw [(C72_errors E S d valid).1 v _ e this] at ht
        cases ht
    obtain ⟨b, hb⟩ := this
    rw [← C10_exact E S d v [] b hS hF hv hi ho hb]
    exact (C72_exact_any E S d valid v b hS hvalid hF hv hi hb).1 ⟨t, ht⟩
  · rintro ⟨h1, h2⟩
    obtain ⟨b, hb⟩ := refused_not_ok (S := S) hm h1
    exact (C72_exact_any E S d valid v b hS hvalid hF hv hi hb).2 ⟨(C10_exact E S d v [] b hS hF hv hi ho hb).2 h1, h2⟩

/-- Export into an `interface{}` succeeds exactly if what Marshal writes is JSON, arrays and objects nest at most 10000 deep, and every number that is
written is in the range of float64; it gives the data of the document that Marshal writes. -/
theorem C64_exact_any (E : Env) (S : SortFn) (d : Opt) (dec : AnyDec) (v : V) (b : Bytes) (hS : GoodSort S) (hd : GoodDec E.parseFloat dec)
    (hF : ∀ f, isValidFloat f = true → JNum (E.jsonFloat f)) (hv : Built E (ApiScalar E) v) (hi : WsIndent (combineOptions d []).indent)
    (h : marshal E S d v [] = .ok (b, none)) :
    ((∃ g, exportAny E S d dec v = .ok g) ↔ (∃ j, JText b j) ∧ Nests maxNesting v ∧ Her (NumShown E (combineOptions d []) fun t => E.parseFloat t ≠ none) v) ∧
    ∀ g, exportAny E S d dec v = .ok g → ∃ j, JText b j ∧ AnyOf E.parseFloat j g := by
  obtain ⟨hm, hn⟩ := api_marshalable hv
  have hq := marshal_quoted d hm hF hn hi h
  have h0 : ∀ g, exportAny E S d dec v = .ok g ↔ dec b = some g := by
    intro g
    unfold exportAny
    rw [h]
    dsimp only
    cases dec b <;> simp
  simp only [h0]
  refine ⟨?_, fun g hg => ?_⟩
  · rw [dec_iff hd hq]
    constructor
    · rintro ⟨j, h2, h3, h4⟩
      have := marshal_shape hS d hm hF hn hi h h2 (fun t => E.parseFloat t ≠ none)
      exact ⟨⟨j, h2⟩, (this.1 _).1 h3, this.2.1 h4⟩
    · rintro ⟨⟨j, h2⟩, h3, h4⟩
      have := marshal_shape hS d hm hF hn hi h h2 (fun t => E.parseFloat t ≠ none)
      exact ⟨j, h2, (this.1 _).2 h3, this.2.2 h4⟩
  · obtain ⟨j, h1, h2, h3⟩ := (dec_iff hd hq).1 ⟨g, hg⟩
    obtain ⟨g', h4, h5⟩ := hd.reads b j h1 h2 h3
    rw [hg] at h4
    cases h4
    exact ⟨j, h1, h5⟩

/-- The same in terms of the value. -/
theorem C64_exact (E : Env) (S : SortFn) (d : Opt) (dec : AnyDec) (v : V) (hS : GoodSort S) (hd : GoodDec E.parseFloat dec)
    (hF : ∀ f, isValidFloat f = true → JNum (E.jsonFloat f)) (hv : Built E (ApiScalar E) v) (hi : WsIndent (combineOptions d []).indent) (ho : (combineOptions d []).omitNull = false) :
    (∃ g, exportAny E S d dec v = .ok g) ↔
      JsonOK E (combineOptions d []) (fun _ _ _ => True) [] v ∧ Nests maxNesting v ∧ Her (NumShown E (combineOptions d []) fun t => E.parseFloat t ≠ none) v := by
  have hm := (api_marshalable hv).1
  constructor
  · rintro ⟨g, hg⟩
    have : ∃ b, marshal E S d v [] = .ok (b, none) := by
      rw [marshal_eq d hm]
      cases he : errOf (optOf d []) v with
      | none => exact ⟨_, rfl⟩
      | some e =>
        have := marshal_eq (E := E) (S := S) d hm (opts := [])
        rw [he] at this
        rw [C64_marshal_error E S d dec v _ e this] at hg
        cases hg
    obtain ⟨b, hb⟩ := this
    rw [← C10_exact E S d v [] b hS hF hv hi ho hb]
    exact (C64_exact_any E S d dec v b hS hd hF hv hi hb).1.1 ⟨g, hg⟩
  · rintro ⟨h1, h2⟩
    obtain ⟨b, hb⟩ := refused_not_ok (S := S) hm h1
    exact (C64_exact_any E S d dec v b hS hd hF hv hi hb).1.2 ⟨(C10_exact E S d v [] b hS hF hv hi ho hb).2 h1, h2⟩

/-- Export into a `*V` succeeds exactly if what Marshal writes is JSON, arrays and objects nest at most 10000 deep, and every number that is written is one
that Unmarshal takes (C02). -/
theorem C64_value_exact (E : Env) (S : SortFn) (d : Opt) (valid : Bytes → Bool) (v dst : V) (hS : GoodSort S) (hvalid : GoodCheck valid) (hdst : dst ≠ .nilp)
    (hF : ∀ f, isValidFloat f = true → JNum (E.jsonFloat f)) (hv : Built E (ApiScalar E) v) (hi : WsIndent (combineOptions d []).indent) (ho : (combineOptions d []).omitNull = false) :
    (∃ w, exportV E S d valid v dst = .ok (w, none)) ↔
      JsonOK E (combineOptions d []) (fun _ _ _ => True) [] v ∧ Nests maxNesting v ∧ Her (NumShown E (combineOptions d []) (NumTaken E)) v := by
  obtain ⟨hm, hn⟩ := api_marshalable hv
  have main : ∀ b, marshal E S d v [] = .ok (b, none) → ((∃ w, exportV E S d valid v dst = .ok (w, none)) ↔
      (∃ j, JText b j) ∧ Nests maxNesting v ∧ Her (NumShown E (combineOptions d []) (NumTaken E)) v) := by
    intro b h
    have hq := marshal_quoted d hm hF hn hi h
    have h0 : (∃ w, exportV E S d valid v dst = .ok (w, none)) ↔ valid b = true ∧ ∃ w, goUnmarshal E b = .ok (b, w, none) := by
      unfold exportV
      rw [h]
      dsimp only
      cases hvb : valid b with
      | false => simp
      | true =>
        rw [if_pos rfl]
        rcases C45_unmarshalJSON E dst hdst b with ⟨w, h1, h2⟩ | ⟨w, e, h1, h2⟩
        · rw [h2, h1]; simp
        · rw [h2, h1]; simp
    rw [h0, check_iff hvalid hq]
    constructor
    · rintro ⟨⟨j, h2, h3⟩, hw⟩
      have := marshal_shape hS d hm hF hn hi h h2 (NumTaken E)
      exact ⟨⟨j, h2⟩, (this.1 _).1 h3, this.2.1 ((C02_exact E b j h2).1 hw)⟩
    · rintro ⟨⟨j, h2⟩, h3, h4⟩
      have := marshal_shape hS d hm hF hn hi h h2 (NumTaken E)
      exact ⟨⟨j, h2, (this.1 _).2 h3⟩, (C02_exact E b j h2).2 (this.2.2 h4)⟩
  constructor
  · rintro ⟨w, hw⟩
    have : ∃ b, marshal E S d v [] = .ok (b, none) := by
      rw [marshal_eq d hm]
      cases he : errOf (optOf d []) v with
      | none => exact ⟨_, rfl⟩
      | some e =>
        have := marshal_eq (E := E) (S := S) d hm (opts := [])
        rw [he] at this
        unfold exportV at hw
        rw [this] at hw
        cases hw
    obtain ⟨b, hb⟩ := this
    rw [← C10_exact E S d v [] b hS hF hv hi ho hb]
    exact (main b hb).1 ⟨w, hw⟩
  · rintro ⟨h1, h2⟩
    obtain ⟨b, hb⟩ := refused_not_ok (S := S) hm h1
    exact (main b hb).2 ⟨(C10_exact E S d v [] b hS hF hv hi ho hb).2 h1, h2⟩

-- a string that is not UTF-8 is no obstacle (it is cleaned), a vertical tab is
example (valid : Bytes → Bool) (hvalid : GoodCheck valid) : (∃ t, jsonMarshal sampleEnv insertionSort emptyOptions valid (.str [0xFF]) = .ok t) ∧
    ¬ ∃ t, jsonMarshal sampleEnv insertionSort emptyOptions valid (.str [0xB]) = .ok t := by
  have hb : ∀ s, Built sampleEnv (ApiScalar sampleEnv) (.str s) := fun s => .scalar _ trivial (.str _)
  have hF : ∀ f, isValidFloat f = true → JNum (sampleEnv.jsonFloat f) := fun f _ =>
    .inr ⟨false, asc "1", asc ".5", [], .inr ⟨0x31, [], by decide +kernel, by decide, by decide, by simp [Digits]⟩, .inr ⟨asc "5", by decide +kernel, by decide +kernel, digits_of (by decide +kernel)⟩, .inl rfl, by decide +kernel, by show [0x31, 0x2E, 0x35] = _; decide +kernel⟩
  have hi : WsIndent (combineOptions emptyOptions []).indent := True.intro
  rw [C72_exact _ _ _ valid _ insertionSort_good hvalid hF (hb _) hi rfl, C72_exact _ _ _ valid _ insertionSort_good hvalid hF (hb _) hi rfl]
  refine ⟨⟨.str _ _ (by decide), nests_scalar (v := .str _) (by exact True.intro) _⟩, fun h => ?_⟩
  cases h.1 with
  | str _ _ h => exact h (by simp)

-- the same for Export
example (dec : AnyDec) (hd : GoodDec sampleEnv.parseFloat dec) : (∃ g, exportAny sampleEnv insertionSort emptyOptions dec (.arr [.str [0xFF]]) = .ok g) ∧
    ¬ ∃ g, exportAny sampleEnv insertionSort emptyOptions dec (.str [0xB]) = .ok g := by
  have hb : ∀ s, Built sampleEnv (ApiScalar sampleEnv) (.str s) := fun s => .scalar _ trivial (.str _)
  have hF : ∀ f, isValidFloat f = true → JNum (sampleEnv.jsonFloat f) := fun f _ =>
    .inr ⟨false, asc "1", asc ".5", [], .inr ⟨0x31, [], by decide +kernel, by decide, by decide, by simp [Digits]⟩, .inr ⟨asc "5", by decide +kernel, by decide +kernel, digits_of (by decide +kernel)⟩, .inl rfl, by decide +kernel, by show [0x31, 0x2E, 0x35] = _; decide +kernel⟩
  have hi : WsIndent (combineOptions emptyOptions []).indent := True.intro
  have ha : Built sampleEnv (ApiScalar sampleEnv) (.arr [.str [0xFF]]) := by
    have h := Built.append (E := sampleEnv) false newArray { c := .str [0xFF] } [] .array (hb [0xFF])
    rwa [show (append sampleEnv false newArray { c := .str [0xFF] } []).1 = .arr [.str [0xFF]] by decide +kernel] at h
  refine ⟨?_, ?_⟩
  · rw [C64_exact _ _ _ dec _ insertionSort_good hd hF ha hi rfl]
    refine ⟨.arr _ _ fun i x hx => ?_, ?_, her_of_kids trivial fun c hc => ?_⟩
    · have := List.mem_of_getElem? hx
      simp only [List.mem_cons, List.not_mem_nil, or_false] at this
      subst this
      exact .str _ _ (by decide)
    · refine (nests_iff (her_self (api_marshalable ha).1.1) (by simp [IsScalar])).2 ⟨9999, rfl, fun c hc => ?_⟩
      have hc : c ∈ [V.str [0xFF]] := hc
      simp only [List.mem_cons, List.not_mem_nil, or_false] at hc
      subst hc
      exact nests_scalar (v := .str _) (by exact True.intro) _
    · have hc : c ∈ [V.str [0xFF]] := hc
      simp only [List.mem_cons, List.not_mem_nil, or_false] at hc
      subst hc
      exact her_leaf trivial (by exact True.intro)
  · rw [C64_exact _ _ _ dec _ insertionSort_good hd hF (hb _) hi rfl]
    intro h
    cases h.1 with
    | str _ _ h => exact h (by simp)

end JV
