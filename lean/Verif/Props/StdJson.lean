import Verif.Proofs.StdJson
import Verif.Proofs.SetSeq
import Verif.Props.Export
/-!
C72: `*V` inside encoding/json. `json.Marshal(v)` calls MarshalJSON, checks the text and compacts it; `json.Unmarshal` checks the text and calls
UnmarshalJSON. `valid` is the check, `d` the global default set by SetDefaultMarshalOptions.
-/
namespace JV
open Spec

theorem jsonMarshal_ok {E : Env} {S : SortFn} {d : Opt} {valid : Bytes → Bool} {v : V} {b : Bytes} (h : marshal E S d v [] = .ok (b, none)) :
    jsonMarshal E S d valid v = if valid b then .ok (compact false false 0 b) else .err .other := by
  cases v <;> simp_all [jsonMarshal, marshalJSON, marshal]

theorem writable_printable {E : Env} {o : Opt} {v : V} (h : Her Writable v) : Her (Printable E o JNum (fun s => 0xB ∉ s)) v := fun l c hc => by
  have := h l c hc
  cases c with
  | num src n =>
    have hs : special src n = none := by simp [special, jnum_ne_nil this]
    exact ⟨fun _ => this, fun s hs' => by rw [hs] at hs'; cases hs'⟩
  | _ => exact this

theorem writable_marshalable {v : V} (hk : Her KeysNodup v) (h : Her Writable v) : Marshalable v :=
  ⟨hk, noNil_her fun l c hc he => by have := h l c hc; rw [he] at this; exact this, fun he => by have := her_self h; rw [he] at this; exact this⟩

/-- C72 as stated. False: see `C72_counterexample`. -/
def C72_statement : Prop := ∀ (E : Env) (S : SortFn) (d : Opt) (valid : Bytes → Bool) (v : V) (b : Bytes), GoodSort S → GoodCheck valid → Built E (ApiScalar E) v →
  marshal E S d v [] = .ok (b, none) → ∃ t, jsonMarshal E S d valid v = .ok t

/-- json.Marshal(v) under the conditions of C10, for any default options: if arrays and objects nest at most 10000 deep, it succeeds with a JSON text
for the same document as Marshal writes, one that shows the contents of the value; the text has no control characters (so it is one line) and none
of `<`, `>`, `&`, even where the default options leave them alone. If they nest deeper, it reports an error. -/
theorem C72_json_marshal_partial (E : Env) (S : SortFn) (d : Opt) (valid : Bytes → Bool) (v : V) (hS : GoodSort S) (hvalid : GoodCheck valid) (hv : Marshalable v)
    (hp : Her (Printable E (combineOptions d []) JNum (fun s => 0xB ∉ s)) v) (hn : Her (NothingOmitted (combineOptions d [])) v)
    (hi : WsIndent (combineOptions d []).indent) :
    (Nests maxNesting v → ∃ b t j, marshal E S d v [] = .ok (b, none) ∧ jsonMarshal E S d valid v = .ok t ∧ JText b j ∧ JText t j ∧
      Shows E (combineOptions d []) (fun _ _ _ => True) [] v j ∧ ∀ c ∈ t, 0x20 ≤ c.toNat ∧ c ≠ 0x3C ∧ c ≠ 0x3E ∧ c ≠ 0x26) ∧
    (¬ Nests maxNesting v → jsonMarshal E S d valid v = .err .other) := by
  obtain ⟨b, hb⟩ := C10_no_error_partial E S d v [] hv hp
  obtain ⟨j, hj, hs⟩ := C10_valid_json_partial E S d v [] b hS hv hp hn hi hb
  refine ⟨fun hdeep => ?_, fun hdeep => ?_⟩
  · obtain ⟨h1, h2⟩ := compact_text hj
    refine ⟨b, _, j, hb, ?_, hj, h1, hs, h2⟩
    rw [jsonMarshal_ok hb, check_passes hvalid hj (shows_depth_le hs hv.1 hdeep)]
    rfl
  · have hno : valid b = false := check_deep hvalid hj (by
      apply Classical.byContradiction
      intro hle
      refine hdeep fun l c hc hsc => ?_
      have := shows_depth_ge hs hn hc hsc
      omega)
    rw [jsonMarshal_ok hb, hno]
    rfl

/-- Unless the default options turn on OptUTF8, turn off HTML escaping or indent, json.Marshal(v) gives the bytes that Marshal gives. -/
theorem C72_same_text (E : Env) (S : SortFn) (ds : List MOpt) (valid : Bytes → Bool) (v : V) (hS : GoodSort S) (hvalid : GoodCheck valid) (hv : Marshalable v)
    (hu : lastSet setsUTF8 ds false = false) (hh : lastSet setsHTML ds true = true) (hi : lastSet setsIndent ds none = none)
    (hp : Her (Printable E (combineOptions (setDefault ds) []) JNum (fun s => 0xB ∉ s)) v) (hn : Her (NothingOmitted (combineOptions (setDefault ds) [])) v)
    (hdeep : Nests maxNesting v) :
    ∃ b, marshal E S (setDefault ds) v [] = .ok (b, none) ∧ jsonMarshal E S (setDefault ds) valid v = .ok b := by
  have ho : optOf (setDefault ds) [] = optOf emptyOptions ds := by have := default_first ds []; rwa [List.append_nil] at this
  have hind : (optOf (setDefault ds) []).indent = none := by rw [ho, set_indent, hi]
  obtain ⟨b, hb⟩ := C10_no_error_partial E S (setDefault ds) v [] hv hp
  obtain ⟨j, hj, hs⟩ := C10_valid_json_partial E S (setDefault ds) v [] b hS hv hp hn (by
    show WsIndent (optOf (setDefault ds) []).indent
    rw [hind]; trivial) hb
  refine ⟨b, hb, ?_⟩
  rw [jsonMarshal_ok hb, check_passes hvalid hj (shows_depth_le hs hv.1 hdeep)]
  have hT := strOK_tame (d := setDefault ds) (opts := []) (by rw [ho]; exact (set_utf8 ds).trans hu) (by
    have := (set_html ds).trans hh
    rw [ho]
    show escHas (ds.foldl MOpt.mergeTo emptyOptions).escProps escapeWithoutHTML = false
    simpa using this)
  obtain ⟨h1, j', h2⟩ := marshal_docJ hS (setDefault ds) hv hT hp hn hb
  rw [hind] at h1
  have := kept_doc (fun t d ht => tameBody_kept ht) h2 0 []
  rw [List.append_nil, ← h1] at this
  rw [if_pos rfl, this]
  simp [compact]

/-- Indentation by white space among the default options makes no difference to json.Marshal(v). -/
theorem C72_indent (E : Env) (S : SortFn) (pre post : List MOpt) (p i : Bytes) (valid : Bytes → Bool) (v : V) (hS : GoodSort S) (hvalid : GoodCheck valid) (hk : Her KeysNodup v)
    (hw : Her Writable v) (hn : Her (NothingOmitted (combineOptions (setDefault (pre ++ post)) [])) v)
    (h1 : WsIndent (combineOptions (setDefault (pre ++ .indent p i :: post)) []).indent) (h2 : WsIndent (combineOptions (setDefault (pre ++ post)) []).indent) :
    jsonMarshal E S (setDefault (pre ++ .indent p i :: post)) valid v = jsonMarshal E S (setDefault (pre ++ post)) valid v := by
  have hm := writable_marshalable hk hw
  obtain ⟨y, hy⟩ := combine_indent (some (p, i)) post (pre.foldl MOpt.mergeTo emptyOptions)
  have ho : optOf (setDefault (pre ++ .indent p i :: post)) [] = { optOf (setDefault (pre ++ post)) [] with indent := y } := by
    have e1 := default_first (pre ++ .indent p i :: post) []
    have e2 := default_first (pre ++ post) []
    rw [List.append_nil] at e1 e2
    rw [e1, e2]
    unfold optOf combineOptions Opt.combineFrom
    simp only [List.foldl_append, List.foldl_cons]
    have : MOpt.mergeTo (pre.foldl MOpt.mergeTo emptyOptions) (.indent p i) = { pre.foldl MOpt.mergeTo emptyOptions with indent := some (p, i) } := rfl
    rw [this, hy]
  have hT : escOf (setDefault (pre ++ .indent p i :: post)) [] = escOf (setDefault (pre ++ post)) [] := by
    unfold escOf; rw [ho]
  have hn' : Her (NothingOmitted (combineOptions (setDefault (pre ++ .indent p i :: post)) [])) v := fun l c hc => by
    have := hn l c hc
    show NothingOmitted (optOf (setDefault (pre ++ .indent p i :: post)) []) c
    rw [ho]
    cases c <;> exact this
  have hp1 := writable_printable (E := E) (o := combineOptions (setDefault (pre ++ .indent p i :: post)) []) hw
  have hp2 := writable_printable (E := E) (o := combineOptions (setDefault (pre ++ post)) []) hw
  obtain ⟨b1, hb1⟩ := C10_no_error_partial E S _ v [] hm hp1
  obtain ⟨b2, hb2⟩ := C10_no_error_partial E S _ v [] hm hp2
  obtain ⟨j1, hj1, hs1⟩ := C10_valid_json_partial E S _ v [] b1 hS hm hp1 hn' h1 hb1
  obtain ⟨j2, hj2, hs2⟩ := C10_valid_json_partial E S _ v [] b2 hS hm hp2 hn h2 hb2
  obtain ⟨r1, -, d1⟩ := marshal_docJ hS _ hm (strOK_strict (escOf_ok _ [])) hp1 hn' hb1
  obtain ⟨r2, j, d2⟩ := marshal_docJ hS _ hm (strOK_strict (escOf_ok _ [])) hp2 hn hb2
  have hd : doc E S (optOf (setDefault (pre ++ .indent p i :: post)) []) (escOf (setDefault (pre ++ .indent p i :: post)) []) v none =
      doc E S (optOf (setDefault (pre ++ post)) []) (escOf (setDefault (pre ++ post)) []) v none := by
    rw [hT, ho, doc_indent]
  obtain ⟨t, ht⟩ := compact_doc (fun t d h => let ⟨t', _, _, h3, _⟩ := compact_body h; ⟨t', h3⟩) d2
  have c1 : compact false false 0 b1 = t := by
    have := ht (optOf (setDefault (pre ++ .indent p i :: post)) []).indent h1 0 []
    rw [List.append_nil] at this
    rw [r1, hd]
    simpa [compact] using this
  have c2 : compact false false 0 b2 = t := by
    have := ht (optOf (setDefault (pre ++ post)) []).indent h2 0 []
    rw [List.append_nil] at this
    rw [r2]
    simpa [compact] using this
  have hv : valid b1 = valid b2 := by
    by_cases hdeep : Nests maxNesting v
    · rw [check_passes hvalid hj1 (shows_depth_le hs1 hk hdeep), check_passes hvalid hj2 (shows_depth_le hs2 hk hdeep)]
    · have hx : ∀ {o : Opt} {j : J}, Her (NothingOmitted o) v → Shows E o (fun _ _ _ => True) [] v j → maxNesting < j.depth := fun hno hs => by
        apply Classical.byContradiction
        intro hle
        refine hdeep fun l c hc hsc => ?_
        have := shows_depth_ge hs hno hc hsc
        omega
      rw [check_deep hvalid hj1 (hx hn' hs1), check_deep hvalid hj2 (hx hn hs2)]
  rw [jsonMarshal_ok hb1, jsonMarshal_ok hb2, hv, c1, c2]

/-- What Marshal reports, json.Marshal reports, with no text; a nil `*V` becomes null. -/
theorem C72_errors (E : Env) (S : SortFn) (d : Opt) (valid : Bytes → Bool) :
    (∀ v b e, marshal E S d v [] = .ok (b, some e) → jsonMarshal E S d valid v = .err e) ∧
    jsonMarshal E S d valid .notExist = .err .valueUninitialized ∧
    jsonMarshal E S d valid .nilp = .ok (asc "null") := by
  refine ⟨fun v b e h => ?_, rfl, by show R.ok nullText = _; decide⟩
  cases v <;> simp_all [jsonMarshal, marshalJSON, marshal]

/-- json.Unmarshal of what json.Marshal wrote gives an Equal value, under any default options that leave nothing out and indent with white space — if
strings and keys are valid UTF-8 without U+000B, numbers are JSON numbers that Unmarshal reads, and arrays and objects nest at most 10000 deep. -/
theorem C72_roundtrip_partial (E : Env) (S : SortFn) (D : DecFn) (d : Opt) (valid : Bytes → Bool) (v dst : V) (hS : GoodSort S) (hvalid : GoodCheck valid) (hdst : dst ≠ .nilp)
    (hk : Her KeysNodup v) (hw : Her Writable v) (hr : Her (Portable E) v) (ho : (combineOptions d []).omitNull = false) (hi : WsIndent (combineOptions d []).indent)
    (hdeep : Nests maxNesting v) :
    ∃ t w, jsonMarshal E S d valid v = .ok t ∧ jsonUnmarshal E valid dst t = .ok (w, none) ∧ equal D v w = true := by
  have hm := writable_marshalable hk hw
  have hn : Her (NothingOmitted (combineOptions d [])) v := fun l c hc => by
    cases c <;> simp [NothingOmitted, ho]
  obtain ⟨b, t, j, -, h2, -, hj, hs, -⟩ := (C72_json_marshal_partial E S d valid v hS hvalid hm (writable_printable hw) hn hi).1 hdeep
  have hN : j.AllNums (Reads E) := shows_nums_of hs hk fun l c hc => by
    have h1 := hw l c hc
    have h2 := hr l c hc
    cases c <;> first | trivial | exact ⟨jnum_ne_nil h1, h2⟩
  have hL : LText (Reads E) t j := by
    obtain ⟨w1, u, w2, rfl, i1, i2, i3⟩ := hj
    exact ⟨w1, u, w2, rfl, i1.blank, lval_mono (fun _ h => numTok_reads h) (strict_val_of E (P := Reads E) (fun _ _ h => reads_numTok h) i2 hN), i3.blank⟩
  obtain ⟨w, h3, h4⟩ := read_back hL
  have hwk : Her KeysNodup w := fun l c hc => by
    have := her_unmarshal_good (goUnmarshal_ok.1 h3).2 l c hc
    cases c with
    | obj n kvs low => exact this.1
    | _ => trivial
  refine ⟨t, w, h2, ?_, (equal_iff D v w hk hwk).2 (shows_equal ho hs hk hr h4)⟩
  unfold jsonUnmarshal
  rw [check_passes hvalid hj (shows_depth_le hs hk hdeep), if_pos rfl]
  rcases C45_unmarshalJSON E dst hdst t with ⟨w', h5, h6⟩ | ⟨w', e, h5, _⟩
  · rw [h3] at h5; cases h5; exact h6
  · rw [h3] at h5; cases h5

/-- The assumptions about the check can be met. -/
theorem C72_check_exists : ∃ valid, GoodCheck valid := by
  classical
  exact ⟨fun s => decide (∃ j, GText s j ∧ j.depth ≤ maxNesting), fun s => decide_eq_true_iff⟩

/-- A vertical tab in a string: Marshal writes it as it is, and json.Marshal fails. -/
theorem C72_counterexample : ¬ C72_statement := by
  intro h
  obtain ⟨valid, hvalid⟩ := C72_check_exists
  have hm : marshal sampleEnv insertionSort emptyOptions (.str [0xB]) [] = .ok ([0x22, 0xB, 0x22], none) := by decide +kernel
  obtain ⟨t, ht⟩ := h sampleEnv insertionSort emptyOptions valid (.str [0xB]) _ insertionSort_good hvalid (.scalar _ trivial (.str _)) hm
  have hno := check_refuses hvalid (s := [0x22, 0xB, 0x22]) vtab_quoted fun j hj => not_json (by decide +kernel) ⟨j, hj⟩
  rw [jsonMarshal_ok hm, hno] at ht
  cases ht

-- the hypotheses: a value with a string that HTML would take for markup; the text with HTML escaping turned off and indentation
example : Her Writable (.arr [.str (asc "<b>"), .num (asc "1") default]) ∧ Her KeysNodup (.arr [.str (asc "<b>"), .num (asc "1") default]) ∧
    Nests maxNesting (.arr [.str (asc "<b>"), .num (asc "1") default]) := by
  have hkid : ∀ c, Kid (.arr [.str (asc "<b>"), .num (asc "1") default]) c → c = .str (asc "<b>") ∨ c = .num (asc "1") default := fun c hc => by simpa [Kid] using hc
  refine ⟨her_of_kids trivial fun c hc => ?_, her_of_kids trivial fun c hc => ?_, fun l c hc hs => ?_⟩
  · rcases hkid c hc with rfl | rfl
    · exact her_leaf (by show (0xB : UInt8) ∉ asc "<b>"; decide) trivial
    · exact her_leaf (Or.inl ⟨false, [0x31], Or.inr ⟨0x31, [], rfl, by decide, by decide, by simp [Digits]⟩, rfl⟩) trivial
  · rcases hkid c hc with rfl | rfl <;> exact her_leaf trivial trivial
  · match l with
    | [] => exact (by decide : 0 < maxNesting)
    | [_] => exact (by decide : 1 < maxNesting)
    | a :: b :: l =>
      exfalso
      rcases a with k | (_ | _ | i) <;> cases b <;> simp [V.at, V.child] at hc

example (valid : Bytes → Bool) : marshal sampleEnv insertionSort (setDefault [.escapeHTML false, .indent [] [0x20]]) (.arr [.str (asc "<b> "), .null]) [] = .ok (asc "[\n \"<b> \",\n null\n]", none) ∧
    (valid (asc "[\n \"<b> \",\n null\n]") = true → jsonMarshal sampleEnv insertionSort (setDefault [.escapeHTML false, .indent [] [0x20]]) valid (.arr [.str (asc "<b> "), .null]) =
      .ok (asc "[\"\\u003cb\\u003e \",null]")) := by
  have hm : marshal sampleEnv insertionSort (setDefault [.escapeHTML false, .indent [] [0x20]]) (.arr [.str (asc "<b> "), .null]) [] = .ok (asc "[\n \"<b> \",\n null\n]", none) := by decide +kernel
  refine ⟨hm, fun hv => ?_⟩
  rw [jsonMarshal_ok hm, hv, if_pos rfl]
  decide +kernel

end JV
