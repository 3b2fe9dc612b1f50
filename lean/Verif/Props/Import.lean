import Verif.Proofs.ImportTotal
import Verif.Props.Marshal
/-!
C40: Import compared with encoding/json. C53: how Import can fail.
-/
namespace JV
open Spec

/-- C40 as stated, for every Go value encoding/json can encode. False: see the counterexamples below. -/
def C40_statement : Prop := ∀ (E : Env) (S : SortFn) (N : Bytes → Bool) (F T : FloatText) (x : GoVal) (g : GJ),
  GoodSort S → stdVal N true x = some g → ∃ v, goImport E S F false x = .ok (v, none) ∧ Holds E F T g v

/-- Import of a plain Go value (Spec/GoPlain) succeeds, and the value holds the document encoding/json makes of it. `hE`: strings.TrimSpace
leaves `-` as it is. -/
theorem C40_partial (E : Env) (S : SortFn) (N : Bytes → Bool) (F T : FloatText) (x : GoVal) (hS : GoodSort S) (hE : E.trimSpace [0x2D] = [0x2D])
    (hx : PlainV E N F T true false false x) :
    ∃ g v, stdVal N true x = some g ∧ goImport E S F false x = .ok (v, none) ∧ Holds E F T g v := by
  obtain ⟨v, g, h1, h2, h3, -⟩ := import_val (S := S) hS hE x {} false false ⟨rfl, rfl, rfl, rfl⟩ hx
  refine ⟨g, v, h2, ?_, h3⟩
  simp only [goImport, h1]

/-- With OptIgnoreJsonOmitempty the same is true for what encoding/json would give if the tags had no `omitempty`. -/
theorem C40_ignore_omitempty_partial (E : Env) (S : SortFn) (N : Bytes → Bool) (F T : FloatText) (x : GoVal) (hS : GoodSort S) (hE : E.trimSpace [0x2D] = [0x2D])
    (hx : PlainV E N F T false false false x) :
    ∃ g v, stdVal N false x = some g ∧ goImport E S F true x = .ok (v, none) ∧ Holds E F T g v := by
  obtain ⟨v, g, h1, h2, h3, -⟩ := import_val (S := S) hS hE x { ignoreOmitempty := true } false false ⟨rfl, rfl, rfl, rfl⟩ hx
  refine ⟨g, v, h2, ?_, h3⟩
  simp only [goImport, h1]

/-- The JSON text: Marshal of the imported value does not panic; where it can print all its numbers and strings (the conditions of C10) it
succeeds with a JSON text that shows the value. -/
theorem C40_marshal_partial (E : Env) (S : SortFn) (N : Bytes → Bool) (F T : FloatText) (x : GoVal) (hS : GoodSort S) (hE : E.trimSpace [0x2D] = [0x2D])
    (hx : PlainV E N F T true false false x) (d : Opt) (opts : List MOpt) :
    ∃ g v b e, stdVal N true x = some g ∧ goImport E S F false x = .ok (v, none) ∧ Holds E F T g v ∧ marshal E S d v opts = .ok (b, e) ∧
      (Her (Printable E (combineOptions d opts) JNum (fun s => 0xB ∉ s)) v → Her (NothingOmitted (combineOptions d opts)) v →
        WsIndent (combineOptions d opts).indent → e = none ∧ ∃ j, JText b j ∧ Shows E (combineOptions d opts) (fun _ _ _ => True) [] v j) := by
  obtain ⟨v, g, h1, h2, h3, h4⟩ := import_val (S := S) hS hE x {} false false ⟨rfl, rfl, rfl, rfl⟩ hx
  have hm : ∃ b e, marshal E S d v opts = .ok (b, e) := by
    rw [marshal_eq d h4]
    cases errOf (optOf d opts) v <;> exact ⟨_, _, rfl⟩
  obtain ⟨b, e, hm⟩ := hm
  refine ⟨g, v, b, e, h2, by simp only [goImport, h1], h3, hm, fun hp hn hi => ?_⟩
  obtain ⟨b', hb'⟩ := C10_no_error_partial E S d v opts h4 hp
  rw [hm] at hb'
  obtain ⟨rfl, rfl⟩ := Prod.mk.inj (R.ok.inj hb')
  exact ⟨rfl, C10_valid_json_partial E S d v opts _ hS h4 hp hn hi hm⟩

/-- A `*V` given to Import comes back as a copy that shows the same. -/
theorem C40_jsonvalue (E : Env) (S : SortFn) (F : FloatText) (ig : Bool) (v : V) (h : Her (· ≠ .nilp) v) :
    ∃ w, goImport E S F ig (.jv v) = .ok (w, none) ∧ SameObs v w := by
  refine ⟨copied v, ?_, copied_sameObs h⟩
  have : v ≠ .nilp := h [] v rfl
  rw [← deepCopy_copied]
  cases v <;> simp_all [goImport, importVal, parseDeepCopier]

/-! ### a plain value -/

/-- `struct { ID int64 "id"; Tags []string "tags,omitempty"; N int "n,string"; M map[uint8]*bool; *Base; secret int; Skip []int "-" }` with an
embedded `Base struct { Name string "name"; None []string "none,omitempty" }` -/
def samplePlain : GoVal := .ptr (.struct [
  .mk (asc "ID") (asc "id") false true (.int 7),
  .mk (asc "Tags") (asc "tags,omitempty") false true (.slice [.str (asc "x"), .str []]),
  .mk (asc "N") (asc "n,string") false true (.int (-3)),
  .mk (asc "M") [] false true (.map [.mk (.uint 12) (.ptr (.bool false)), .mk (.uint 3) (.nilPtr (.bool false))]),
  .mk (asc "Base") [] true true (.ptr (.struct [
    .mk (asc "Name") (asc "name") false true (.str (asc "n")),
    .mk (asc "None") (asc "none,omitempty") false true .nilSlice])),
  .mk (asc "secret") [] false false (.int 1),
  .mk (asc "Skip") (asc "-") false true .nilSlice])

theorem samplePlain_plain (F T : FloatText) : PlainV sampleEnv (fun _ => true) F T true false false samplePlain := by
  have t : ∀ name tag : Bytes, (tagName tag ≠ [0x2D] ∧ name ≠ [0x2D] ∧ name ≠ [] ∧ sampleEnv.trimSpace (tagName tag) = tagName tag) → TagOK sampleEnv (fun _ => true) name tag :=
    fun _ _ h => ⟨h.1, h.2.1, h.2.2.1, h.2.2.2, .inr rfl⟩
  refine ⟨⟨?_, ?_, ?_, ?_, ?_, ?_, ?_, trivial⟩, by decide +kernel⟩
  · exact .inr (.inr ⟨t _ _ (by decide +kernel), .inr ⟨by decide +kernel, .inr ⟨by decide +kernel, by decide +kernel, by decide +kernel⟩⟩⟩)
  · exact .inr (.inr ⟨t _ _ (by decide +kernel), .inr ⟨by decide +kernel, .inr ⟨by decide +kernel, by simp, (by intro h; cases h), (by intro h; cases h), trivial⟩⟩⟩)
  · exact .inr (.inr ⟨t _ _ (by decide +kernel), .inr ⟨by decide +kernel, .inl ⟨by decide +kernel, by intro _; decide⟩⟩⟩)
  · exact .inr (.inr ⟨t _ _ (by decide +kernel), .inr ⟨by decide +kernel, .inr ⟨by decide +kernel, by decide +kernel, by decide +kernel, ⟨by decide +kernel, by decide +kernel⟩, (by show (true && tagHas [] omitemptyWord) = false; decide +kernel), trivial⟩⟩⟩)
  · exact .inr ⟨t _ _ (by decide +kernel), .inl ⟨by decide +kernel, rfl,
      .inr (.inr ⟨t _ _ (by decide +kernel), .inr ⟨by decide +kernel, .inr ⟨by decide +kernel, by intro _; decide⟩⟩⟩),
      .inr (.inr ⟨t _ _ (by decide +kernel), .inl ⟨by decide +kernel, rfl⟩⟩), trivial⟩⟩
  · exact .inl rfl
  · exact .inr (.inl (by decide +kernel))

example (F T : FloatText) : ∃ g v, stdVal (fun _ => true) true samplePlain = some g ∧ goImport sampleEnv insertionSort F false samplePlain = .ok (v, none) ∧ Holds sampleEnv F T g v :=
  C40_partial _ _ _ F T _ insertionSort_good (by decide +kernel) (samplePlain_plain F T)

-- {"id":7,"tags":["x",""],"n":"-3","M":{"12":false,"3":null},"name":"n"}
example : goImport sampleEnv insertionSort (fun _ _ => []) false samplePlain = .ok (.obj 5 [
    ⟨asc "id", 1, newInt64 sampleEnv 7⟩,
    ⟨asc "tags", 2, .arr [.str (asc "x"), .str []]⟩,
    ⟨asc "n", 3, .str (asc "-3")⟩,
    ⟨asc "M", 4, .obj 2 [⟨asc "12", 1, .bool false⟩, ⟨asc "3", 2, .null⟩] none⟩,
    ⟨asc "name", 5, .str (asc "n")⟩] none, none) := by decide +kernel

/-! ### where Import differs from encoding/json -/

/-- encoding/json encodes the value, and what Import returns does not hold that document -/
def Differs (x : GoVal) : Prop := ∃ g, stdVal (fun _ => true) true x = some g ∧
  ∀ F T v, goImport sampleEnv insertionSort F false x = .ok (v, none) → ¬ Holds sampleEnv F T g v

theorem differs_refutes {x : GoVal} (h : Differs x) : ¬ C40_statement := by
  intro hs
  obtain ⟨g, h1, h2⟩ := h
  obtain ⟨v, h3, h4⟩ := hs sampleEnv insertionSort (fun _ => true) (fun _ _ => []) (fun _ _ => []) x g insertionSort_good h1
  exact h2 _ _ v h3 h4

/-- what an object holds: the number of members, and each member -/
theorem holds_obj_inv {E : Env} {F T : FloatText} {ms : List GMem} {v : V} (h : Holds E F T (.obj ms) v) :
    len v = .ok ms.length ∧ ∀ k g, memOf k ms = some g → ∃ c, get E v [.str k] = .ok c ∧ Holds E F T g c := by
  cases h with
  | obj ms v child h1 h2 h3 h4 h5 h6 => exact ⟨h3, fun k g hk => ⟨_, h5 k g hk, h6 k g hk⟩⟩

/-- a struct with the one exported field `A` -/
def fieldA (tag : String) (x : GoVal) : GoVal := .struct [.mk (asc "A") (asc tag) false true x]

/-- `[]int(nil)` is null for encoding/json -/
theorem C40_nil_slice : Differs .nilSlice := by
  refine ⟨.null, rfl, fun F T v h => ?_⟩
  cases (R.ok.inj h)
  intro h; cases h

theorem C40_counterexample : ¬ C40_statement := differs_refutes C40_nil_slice

/-- `[]byte(nil)` is null for encoding/json -/
theorem C40_nil_bytes : Differs (.bytes false none) := by
  refine ⟨.null, rfl, fun F T v h => ?_⟩
  cases (R.ok.inj h)
  intro h; cases h

/-- a slice of bytes of a named type (`type ID []byte`, json.RawMessage excepted) is a base64 string for encoding/json -/
theorem C40_named_bytes : Differs (.bytes true (some [1])) := by
  refine ⟨.b64 [1], rfl, fun F T v h => ?_⟩
  cases (R.ok.inj h)
  intro h; cases h

theorem differs_len {x : GoVal} {ms : List GMem} {w : V} {n : Nat} (h1 : stdVal (fun _ => true) true x = some (.obj ms))
    (h2 : ∀ F, goImport sampleEnv insertionSort F false x = .ok (w, none)) (h3 : len w = .ok n) (h4 : n ≠ ms.length) : Differs x := by
  refine ⟨_, h1, fun F T v h => ?_⟩
  rw [h2 F] at h
  cases (R.ok.inj h)
  intro hh
  have := (holds_obj_inv hh).1
  rw [h3] at this
  exact h4 (R.ok.inj this)

theorem differs_at {x : GoVal} {ms : List GMem} {w c : V} {k : Bytes} {g : GJ} (h1 : stdVal (fun _ => true) true x = some (.obj ms))
    (hk : memOf k ms = some g) (h2 : ∀ F, goImport sampleEnv insertionSort F false x = .ok (w, none)) (h3 : get sampleEnv w [.str k] = .ok c)
    (h4 : ∀ F T, ¬ Holds sampleEnv F T g c) : Differs x := by
  refine ⟨_, h1, fun F T v h => ?_⟩
  rw [h2 F] at h
  cases (R.ok.inj h)
  intro hh
  obtain ⟨c', h5, h6⟩ := (holds_obj_inv hh).2 k g hk
  rw [h3] at h5
  cases (R.ok.inj h5)
  exact h4 F T h6

theorem holds_int_inv {E : Env} {F T : FloatText} {i : Int} {v : V} (h : Holds E F T (.int i) v) :
    ∃ t n, v = .num t n ∧ (i < 2 ^ 63 → n.i64.toInt = i) := by
  cases h with
  | int _ n h1 h2 h3 h4 => exact ⟨_, n, rfl, h3⟩

theorem holds_arr_inv {E : Env} {F T : FloatText} {xs : List GJ} {v : V} (h : Holds E F T (.arr xs) v) :
    ∃ vs, v = .arr vs ∧ ∀ (i : Nat) x w, xs[i]? = some x → vs[i]? = some w → Holds E F T x w := by
  cases h with
  | arr _ vs h1 h2 => exact ⟨vs, rfl, h2⟩

theorem holds_qstr_inv {E : Env} {F T : FloatText} {s : Bytes} {v : V} (h : Holds E F T (.quoted (.str s)) v) :
    ∃ t, v = .str t ∧ JStr t s := by
  cases h with
  | qstr _ t h => exact ⟨t, rfl, h⟩

theorem std_fieldA {tag : String} {x : GoVal} {g : GJ} {o q : Bool} (h1 : asc tag ≠ [0x2D]) (h2 : tagName (asc tag) ≠ [])
    (h3 : (tagHas (asc tag) omitemptyWord && goEmpty x) = o) (hq : (tagHas (asc tag) stringWord && quotable x) = q)
    (h4 : (if q then (stdVal (fun _ => true) true x).map .quoted else stdVal (fun _ => true) true x) = some g) :
    stdVal (fun _ => true) true (fieldA tag x) = some (.obj (if o then [] else [⟨tagName (asc tag), g⟩])) := by
  have h5 : stdCands (fun _ => true) true 0 false [.mk (asc "A") (asc tag) false true x] =
      [{ name := tagName (asc tag), depth := 0, tagged := true, hidden := false, omitted := o, res := some g }] := by
    generalize asc "A" = n
    generalize asc tag = t at *
    subst hq
    subst h3
    simpa [stdCands, stdCand, h1, h2] using h4
  rw [fieldA, stdVal, h5]
  cases o <;> simp [visible, wins]

/-- a pointer to a zero value is not empty: `A *int "a,omitempty"` -/
theorem C40_omitempty_pointer : Differs (fieldA "a,omitempty" (.ptr (.int 0))) :=
  differs_len (ms := [⟨asc "a", .int 0⟩]) (w := newObject) (std_fieldA (o := false) (q := false) (by decide +kernel) (by decide +kernel) (by decide +kernel) (by decide +kernel) rfl) (fun F => rfl) rfl
    (by decide)

/-- `omitempty` is about the map, not about its values: `A map[string]int "a,omitempty"` -/
theorem C40_omitempty_map : Differs (fieldA "a,omitempty" (.map [.mk (.str (asc "k")) (.int 0)])) :=
  differs_at (ms := [⟨asc "a", .obj [⟨asc "k", .int 0⟩]⟩]) (w := .obj 1 [⟨asc "a", 1, .obj 0 [] none⟩] none) (k := asc "a")
    (std_fieldA (o := false) (q := false) (by decide +kernel) (by decide +kernel) (by decide +kernel) (by decide +kernel) rfl) rfl (fun F => rfl) rfl
    fun F T h => absurd (holds_obj_inv h).1 (by decide)

/-- an array of length 0 is empty: `A [0]int "a,omitempty"` -/
theorem C40_omitempty_array : Differs (fieldA "a,omitempty" (.arr [])) :=
  differs_len (ms := []) (w := .obj 1 [⟨asc "a", 1, .arr []⟩] none)
    (std_fieldA (o := true) (q := false) (by decide +kernel) (by decide +kernel) (by decide +kernel) (by decide +kernel) rfl) (fun F => rfl) rfl (by decide)

/-- what `omitempty` leaves out of what a json.Marshaler gives: null, false, "", [] , {} and a number whose float64 value is 0 or -0 -/
def LeftOut (v : V) : Prop :=
  v = .null ∨ v = .bool false ∨ v = .str [] ∨ v = .arr [] ∨ (∃ n low, v = .obj n [] low) ∨
  ∃ t n, v = .num t n ∧ (n.f64 = 0#64 ∨ n.f64 = 0x8000000000000000#64)

/-- `A T "a,omitempty"` where `T` has MarshalJSON: the field is there exactly when what MarshalJSON gives is none of these, and then it is what
Unmarshal makes of it. If Unmarshal rejects it, so does Import. -/
theorem C40_marshaler_omitempty (E : Env) (S : SortFn) (F : FloatText) (e : Bool) (b : Bytes) (hE : E.trimSpace (asc "a") = asc "a") :
    (∀ v, unmarshal E b = .ok v → ∃ w, goImport E S F false (fieldA "a,omitempty" (.marsh e (some b))) = .ok (w, none) ∧
      (LeftOut v → w = newObject) ∧ (¬ LeftOut v → len w = .ok 1 ∧ get E w [.str (asc "a")] = .ok v)) ∧
    ((∀ v, unmarshal E b ≠ .ok v) → ∃ er, goImport E S F false (fieldA "a,omitempty" (.marsh e (some b))) = .ok (.notExist, some er)) := by
  have ht : readFieldTag E (asc "A") (asc "a,omitempty") { ignoreOmitempty := false } = (asc "a", { omitempty := true }) := by
    have h1 : splitComma (asc "a,omitempty") = [asc "a", optOmitempty] := by decide +kernel
    have h2 : asc "a,omitempty" ≠ [] := by decide +kernel
    have h3 : asc "a" ≠ [] := by decide +kernel
    simp only [readFieldTag, h1, h2, if_false, List.headD_cons, hE, h3, List.tail_cons,
      show [optOmitempty].contains optOmitempty = true by decide +kernel, show [optOmitempty].contains optString = false by decide +kernel]
  have h4 : asc "a" ≠ [0x2D] := by decide +kernel
  have hr : RO.field .no false true = .no := by decide
  have hg : goImport E S F false (fieldA "a,omitempty" (.marsh e (some b))) =
      match parseJSONMarshaler E { omitempty := true } (some b) with
      | .ok c => (match mustSetAll E newObject (if isNil c then [] else [(asc "a", c)]) with
        | .ok v => .ok (v, none)
        | .err e => .ok (.notExist, some e)
        | .panic => .panic
        | .diverge => .diverge)
      | .err e => .ok (.notExist, some e)
      | .panic => .panic
      | .diverge => .diverge := by
    simp only [goImport, fieldA, importVal, importFields, importField, hr, ht, h4, if_false, ne_eq, not_true_eq_false, if_true]
    cases parseJSONMarshaler E { omitempty := true } (some b) with
    | ok c => simp only [R.bind_ok, R.pure_eq]; cases mustSetAll E newObject (if isNil c then [] else [(asc "a", c)]) <;> rfl
    | _ => rfl
  rw [hg]
  generalize asc "a" = k
  refine ⟨fun v hv => ?_, fun hn => ?_⟩
  · have hs : Solid v := her_unmarshal_solid hv [] v rfl
    have hp : parseJSONMarshaler E { omitempty := true } (some b) = .ok (if emptyV v then .nilp else v) := by
      simp only [parseJSONMarshaler, goUnmarshal_ok.2 ⟨rfl, hv⟩, Ext.omit]; rfl
    have hl : emptyV v = true ↔ LeftOut v := by
      cases v <;> simp_all [emptyV, LeftOut, Solid, fltNonzero] <;> grind
    rw [hp]
    by_cases he : emptyV v = true
    · refine ⟨newObject, by simp [he, isNil, mustSetAll], fun _ => rfl, fun h => absurd (hl.1 he) h⟩
    · have hnil : isNil v = false := by cases v <;> simp_all [isNil, Solid]
      refine ⟨.obj 1 [⟨k, 1, v⟩] none, ?_, fun h => absurd (hl.2 h) he, fun _ => ⟨rfl, ?_⟩⟩
      · have : mustSetKey E newObject v k = .ok (.obj 1 [⟨k, 1, v⟩] none) := by
          cases v with
          | nilp => exact absurd hs (by simp [Solid])
          | notExist => exact absurd hs (by simp [Solid])
          | _ => rfl
        simp [he, hnil, mustSetAll, this]
      · rw [get_key]; simp [lookup]
  · obtain ⟨v, h, -⟩ | ⟨er, h1, h2⟩ := goUnmarshal_cases E b
    · exact absurd h (hn v)
    · refine ⟨.other, ?_⟩
      simp only [parseJSONMarshaler, h2]

example (S : SortFn) (F : FloatText) : ∃ w, goImport sampleEnv S F false (fieldA "a,omitempty" (.marsh true (some (asc "false")))) = .ok (w, none) ∧ w = newObject := by
  obtain ⟨w, h1, h2, -⟩ := (C40_marshaler_omitempty sampleEnv S F true (asc "false") (by decide +kernel)).1 (.bool false) (by decide +kernel)
  exact ⟨w, h1, h2 (.inr (.inl rfl))⟩

/-- `string` applies to fields of scalar types only: `A []bool "a,string"` -/
theorem C40_string_slice : Differs (fieldA "a,string" (.slice [.bool true])) :=
  differs_at (ms := [⟨asc "a", .arr [.bool true]⟩]) (w := .obj 1 [⟨asc "a", 1, .arr [.str (asc "true")]⟩] none) (k := asc "a")
    (std_fieldA (o := false) (q := false) (by decide +kernel) (by decide +kernel) (by decide +kernel) (by decide +kernel) rfl) rfl (fun F => rfl) rfl
    fun F T h => by
      obtain ⟨vs, h1, h2⟩ := holds_arr_inv h
      have h3 := h2 0 _ (.str (asc "true")) rfl (by rw [← V.arr.inj h1]; rfl)
      generalize asc "true" = t at h3
      cases h3

/-- ... and to strings too: `A string "a,string"` -/
theorem C40_string_string : Differs (fieldA "a,string" (.str (asc "x"))) :=
  differs_at (ms := [⟨asc "a", .quoted (.str (asc "x"))⟩]) (w := .obj 1 [⟨asc "a", 1, .str (asc "x")⟩] none) (k := asc "a")
    (std_fieldA (o := false) (q := true) (by decide +kernel) (by decide +kernel) (by decide +kernel) (by decide +kernel) rfl) rfl (fun F => rfl) rfl
    fun F T h => by
      obtain ⟨t, h1, b, h2, -⟩ := holds_qstr_inv h
      rw [← V.str.inj h1] at h2
      exact absurd (List.head_eq_of_cons_eq h2) (by decide)

/-- the tag `-,` names the field `-` -/
theorem C40_dash_comma : Differs (fieldA "-," (.int 1)) :=
  differs_len (ms := [⟨asc "-", .int 1⟩]) (w := newObject) rfl (fun F => rfl) rfl (by decide)

/-- blanks in a name are part of it -/
theorem C40_blank_name : Differs (fieldA "a " (.int 1)) := by
  refine ⟨_, rfl, fun F T v h => ?_⟩
  have h2 : goImport sampleEnv insertionSort F false (fieldA "a " (.int 1)) = .ok (.obj 1 [⟨asc "a", 1, newInt64 sampleEnv 1⟩] none, none) := rfl
  rw [h2] at h
  cases (R.ok.inj h)
  intro hh
  obtain ⟨c', h5, h6⟩ := (holds_obj_inv hh).2 (asc "a ") (.int 1) rfl
  have h7 : get sampleEnv (.obj 1 [⟨asc "a", 1, newInt64 sampleEnv 1⟩] none) [.str (asc "a ")] = .err .notFound := by decide +kernel
  rw [h7] at h5
  cases h5

/-- an embedded struct with a name in its tag is a member of that name -/
theorem C40_embedded_named : Differs (.struct [.mk (asc "B") (asc "b") true true (.struct [])]) :=
  differs_len (ms := [⟨asc "b", .obj []⟩]) (w := newObject) rfl (fun F => rfl) rfl (by decide)

/-- an embedded nil pointer to a struct has no members -/
theorem C40_embedded_nil : Differs (.struct [.mk (asc "B") [] true true (.nilPtr (.struct []))]) :=
  differs_len (ms := []) (w := .obj 1 [⟨asc "B", 1, .null⟩] none) rfl (fun F => rfl) rfl (by decide)

/-- an embedded map type is a member with the name of the type -/
theorem C40_embedded_map : Differs (.struct [.mk (asc "M") [] true true (.map [.mk (.str (asc "a")) (.int 1), .mk (.str (asc "b")) (.int 1)])]) :=
  differs_len (ms := [⟨asc "M", .obj [⟨asc "a", .int 1⟩, ⟨asc "b", .int 1⟩]⟩]) (w := .obj 2 [⟨asc "a", 1, newInt64 sampleEnv 1⟩, ⟨asc "b", 2, newInt64 sampleEnv 1⟩] none)
    rfl (fun F => rfl) rfl (by decide)

/-- an embedded field of an unexported map type is ignored -/
theorem C40_embedded_unexported_map : Differs (.struct [.mk (asc "m") [] true false (.map [.mk (.str (asc "a")) (.int 1)])]) :=
  differs_len (ms := []) (w := .obj 1 [⟨asc "a", 1, newInt64 sampleEnv 1⟩] none) rfl (fun F => rfl) rfl (by decide)

/-- a field of the outer struct hides the field of the same name of an embedded struct -/
theorem C40_dominance : Differs (.struct [.mk (asc "A") [] false true (.int 1), .mk (asc "B") [] true true (.struct [.mk (asc "A") [] false true (.int 2)])]) :=
  differs_at (ms := [⟨asc "A", .int 1⟩]) (w := .obj 2 [⟨asc "A", 2, newInt64 sampleEnv 2⟩] none) (c := newInt64 sampleEnv 2) (k := asc "A") rfl rfl (fun F => rfl) rfl
    fun F T h => by
      obtain ⟨t, n, h1, h2⟩ := holds_int_inv h
      have h3 : n.i64 = 2#64 := by rw [newInt64] at h1; rw [← (V.num.inj h1).2]; rfl
      rw [h3] at h2
      exact absurd (h2 (by decide)) (by decide)

/-- two fields with the same name at the same depth cancel each other out -/
theorem C40_conflict : Differs (.struct [.mk (asc "B") [] true true (.struct [.mk (asc "A") [] false true (.int 1)]),
    .mk (asc "C") [] true true (.struct [.mk (asc "A") [] false true (.int 2)])]) :=
  differs_len (ms := []) (w := .obj 2 [⟨asc "A", 2, newInt64 sampleEnv 2⟩] none) rfl (fun F => rfl) rfl (by decide)

/-- a nil pointer whose type has MarshalJSON (a nil `*time.Time`) is null -/
theorem C40_nil_marshaler : Differs (fieldA "a" .nilMarsh) :=
  differs_len (ms := [⟨asc "a", .null⟩]) (w := newObject) rfl (fun F => rfl) rfl (by decide)

/-- NaN is an error for encoding/json, not for Import -/
theorem C40_nan (N : Bytes → Bool) (E : Env) (S : SortFn) (F : FloatText) (f : BitVec 64) (h : isNaN f = true) :
    stdVal N true (.flt false f) = none ∧ ∃ v, goImport E S F false (.flt false f) = .ok (v, none) := by
  refine ⟨?_, newFloat E F false f, ?_⟩
  · have : finite f = false := by
      simp only [isNaN, Bool.and_eq_true, beq_iff_eq] at h
      simp [finite, h.1]
    simp [stdVal, this]
  · simp [goImport, importVal, Ext.omit]

/-! ### C53: no panic, no nil -/

/-- C53 as stated. False: see the counterexamples below. -/
def C53_statement : Prop := ∀ (E : Env) (S : SortFn) (F : FloatText) (ig : Bool) (x : GoVal), GoodSort S →
  ∃ v e, goImport E S F ig x = .ok (v, e) ∧ NoNil v

/-- Import of a sane value (Spec/GoSane) returns; the result is not nil and contains no nil, so that Marshal does not panic on it; with an error
it is a NotExist value. -/
theorem C53_partial (E : Env) (S : SortFn) (F : FloatText) (ig : Bool) (x : GoVal) (hS : GoodSort S) (hx : SaneV true x) :
    ∃ v e, goImport E S F ig x = .ok (v, e) ∧ NoNil v ∧ (e ≠ none → v = .notExist) ∧
      ∀ d opts, ∃ b e', marshal E S d v opts = .ok (b, e') := by
  have hm : ∀ v, Clean v → ∀ d opts, ∃ b e', marshal E S d v opts = .ok (b, e') := by
    intro v hv d opts
    by_cases hn : v = .notExist
    · subst hn; exact ⟨_, _, rfl⟩
    · rw [marshal_eq d ⟨hv.2, hv.1, hn⟩]
      cases errOf (optOf d opts) v <;> exact ⟨_, _, rfl⟩
  rcases total_val (E := E) (F := F) hS x { ignoreOmitempty := ig } true rfl (fun _ => by cases ig <;> rfl) hx with ⟨e, h⟩ | ⟨v, h1, h2, h3⟩
  · exact ⟨.notExist, some e, by simp only [goImport, h], clean_notExist.1, fun _ => rfl, hm _ clean_notExist⟩
  · have hc := h3 (h2 rfl)
    exact ⟨v, none, by simp only [goImport, h1], hc.1, fun h => absurd rfl h, hm v hc⟩

-- {"A":null-marshaler,"m":{...}}: nil pointers to marshalers may be fields and map values
example : SaneV true (.struct [.mk (asc "T") [] false true .nilMarsh, .mk (asc "e") [] true false (.ptr (.struct [.mk (asc "X") [] false true (.slice [.jv (.arr [])])]))]) :=
  ⟨.inr rfl, .inr ⟨.inr ⟨⟨by simp, her_of_kids trivial fun c hc => absurd (show c ∈ ([] : List V) from hc) List.not_mem_nil⟩, trivial⟩, trivial⟩, trivial⟩

/-- Import((*time.Time)(nil)) and Import((*jsonvalue.V)(nil)) return nil and no error. -/
theorem C53_nil_result (E : Env) (S : SortFn) (F : FloatText) (ig : Bool) : goImport E S F ig .nilMarsh = .ok (.nilp, none) ∧ goImport E S F ig (.jv .nilp) = .ok (.nilp, none) :=
  ⟨rfl, rfl⟩

theorem C53_counterexample : ¬ C53_statement := by
  intro h
  obtain ⟨v, e, h1, h2⟩ := h sampleEnv insertionSort (fun _ _ => []) false .nilMarsh insertionSort_good
  rw [(C53_nil_result sampleEnv insertionSort _ false).1] at h1
  cases (R.ok.inj h1)
  exact h2 [] rfl

/-- `[]*time.Time{nil}` becomes an array with a nil element; Marshal of it panics. -/
theorem C53_nil_element (E : Env) (S : SortFn) (F : FloatText) (ig : Bool) : goImport E S F ig (.slice [.nilMarsh]) = .ok (.arr [.nilp], none) ∧
    ∀ d opts, marshal E S d (.arr [.nilp]) opts = .panic := by
  refine ⟨by cases ig <;> rfl, fun d opts => ?_⟩
  simp only [marshal, marshalTo, marshalElems, List.length_cons, List.length_nil, Nat.zero_add, if_neg (show ¬ 1 = 0 by decide)]
  rfl

/-- Zero elements of an array in an embedded map of an unexported type: nil elements again. `struct{ m }` with `type m map[string][]int` -/
theorem C53_nil_embedded : goImport sampleEnv insertionSort (fun _ _ => []) false
    (.struct [.mk (asc "m") [] true false (.map [.mk (.str (asc "a")) (.slice [.int 0])])]) =
    .ok (.obj 1 [⟨asc "a", 1, .arr [.nilp]⟩] none, none) := by decide +kernel

/-- `struct{ list }` with `type list [][]byte`: Import panics (reflect.Value.Interface of a value obtained through an unexported field), while
encoding/json ignores the field. -/
theorem C53_panic (E : Env) (S : SortFn) (F : FloatText) (ig : Bool) (N : Bytes → Bool) :
    goImport E S F ig (.struct [.mk (asc "list") [] true false (.slice [.bytes false (some [1])])]) = .panic ∧
    stdVal N true (.struct [.mk (asc "list") [] true false (.slice [.bytes false (some [1])])]) = some (.obj []) := by
  exact ⟨rfl, rfl⟩

end JV
