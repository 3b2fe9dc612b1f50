import Verif.Proofs.Export
import Verif.Proofs.StdExact
import Verif.Props.Compare
/-!
C64: Export hands over the contents. Also: the JSON grammar that C02, C03 and C10 speak of is unambiguous.
-/
namespace JV
open Spec

/-- "its standard meaning" (C02) is well defined: a text is at most one document. -/
theorem C02_unambiguous (s : Bytes) (j j' : J) (h : JText s j) (h' : JText s j') : j = j' := jtext_unique h h'

/-- C64 for an `interface{}`. False: see `C64_counterexample`. -/
def C64_statement : Prop := ∀ (E : Env) (S : SortFn) (d : Opt) (dec : AnyDec) (v : V), GoodSort S → GoodDec E.parseFloat dec → Built E (ApiScalar E) v →
  Her (fun c => match c with | .str s => ValidUTF8 s | .num src _ => JNum src ∧ E.parseFloat src ≠ none | .obj _ kvs _ => ∀ e ∈ kvs, ValidUTF8 e.key | _ => True) v →
  d.omitNull = false → WsIndent d.indent → ∃ g, exportAny E S d dec v = .ok g ∧ Exported E.parseFloat v g

/-- Export into an `interface{}` gives the Go data for the value, whatever the default options for escaping and key order — if strings and keys
are valid UTF-8 without U+000B, numbers are JSON numbers in the range of float64, arrays and objects nest at most 10000 deep, and the default options leave nothing out and indent with white
space. -/
theorem C64_any_partial (E : Env) (S : SortFn) (d : Opt) (dec : AnyDec) (v : V) (hS : GoodSort S) (hd : GoodDec E.parseFloat dec) (hk : Her KeysNodup v)
    (hp : Her (Exportable E.parseFloat) v) (hn : Her (NothingOmitted (combineOptions d [])) v) (hi : WsIndent (combineOptions d []).indent)
    (hdeep : Nests maxNesting v) : ∃ g, exportAny E S d dec v = .ok g ∧ Exported E.parseFloat v g := by
  have hm := exportable_marshalable hk hp
  have hpr := exportable_printable (E := E) (o := combineOptions d []) hp
  obtain ⟨b, hb⟩ := C10_no_error_partial E S d v [] hm hpr
  obtain ⟨j, hj, hs⟩ := C10_valid_json_partial E S d v [] b hS hm hpr hn hi hb
  obtain ⟨g, hg, ha⟩ := hd.reads b j hj (shows_depth_le hs hk hdeep) (shows_nums hs hk hp)
  exact ⟨g, by unfold exportAny; rw [hb]; simp only [hg], shows_exported hs hk hp hn ha⟩

/-- Export into a `*V` gives an Equal value. `valid` is the check of encoding/json, which lets JSON texts pass that do not nest too deep. -/
theorem C64_value_partial (E : Env) (S : SortFn) (D : DecFn) (d : Opt) (valid : Bytes → Bool) (v dst : V) (hS : GoodSort S)
    (hvalid : ∀ s j, JText s j → j.depth ≤ maxNesting → valid s = true) (hdst : dst ≠ .nilp) (hk : Her KeysNodup v) (hp : Her (Exportable E.parseFloat) v) (hr : Her (Portable E) v)
    (ho : (combineOptions d []).omitNull = false) (hw : WsIndent (combineOptions d []).indent)
    (hdeep : Nests maxNesting v) : ∃ w, exportV E S d valid v dst = .ok (w, none) ∧ equal D v w = true := by
  have hm := exportable_marshalable hk hp
  have hpr := exportable_printable (E := E) (o := combineOptions d []) hp
  have hn : Her (NothingOmitted (combineOptions d [])) v := fun l c hc => by
    cases c <;> simp [NothingOmitted, ho]
  have hi : BlankIndent (combineOptions d []).indent := by
    cases hx : (combineOptions d []).indent with
    | none => exact trivial
    | some p => rw [hx] at hw; exact ⟨hw.1.blank, hw.2.blank⟩
  obtain ⟨b, w, h1, h2, h3⟩ := C09_roundtrip_partial E S D d v [] hS hk hr hi
  rw [ho] at h3
  obtain ⟨j, hj, hs⟩ := C10_valid_json_partial E S d v [] b hS hm hpr hn hw h1
  refine ⟨w, ?_, h3⟩
  unfold exportV
  rw [h1]
  simp only [hvalid b j hj (shows_depth_le hs hk hdeep), if_true]
  rcases C45_unmarshalJSON E dst hdst b with ⟨w', h4, h5⟩ | ⟨w', e, h4, _⟩
  · rw [h2] at h4; cases h4; exact h5
  · rw [h2] at h4; cases h4

/-- If Export into a `*V` reports an error, the target is as before. -/
theorem C64_all_or_nothing (E : Env) (S : SortFn) (d : Opt) (valid : Bytes → Bool) (v dst w : V) (e : Err) (hdst : dst ≠ .nilp)
    (h : exportV E S d valid v dst = .ok (w, some e)) : w = dst := by
  unfold exportV at h
  split at h
  · split at h
    · rename_i b _ _
      rcases C45_unmarshalJSON E dst hdst b with ⟨w', _, h5⟩ | ⟨w', e', _, h5⟩
      · rw [h5] at h; cases h
      · rw [h5] at h; cases h; rfl
    · cases h; rfl
  · cases h; rfl
  · cases h
  · cases h
  · cases h

/-- What Marshal reports (NotExist, NaN or Inf at the top), Export reports. -/
theorem C64_marshal_error (E : Env) (S : SortFn) (d : Opt) (dec : AnyDec) (v : V) (b : Bytes) (e : Err) (h : marshal E S d v [] = .ok (b, some e)) :
    exportAny E S d dec v = .err e := by
  unfold exportAny; rw [h]

/-! There are decoders as assumed. -/

theorem anyFind_none {k : Bytes} : ∀ {kvs : List (Bytes × AnyVal)}, anyFind k kvs = none ↔ k ∉ kvs.map Prod.fst
  | [] => by simp [anyFind]
  | (k', g) :: kvs => by
    unfold anyFind
    by_cases h : k' = k
    · simp [h]
    · rw [if_neg h, anyFind_none]
      simp only [List.map_cons, List.mem_cons, not_or]
      exact ⟨fun hk => ⟨fun he => h he.symm, hk⟩, fun hk => hk.2⟩

mutual
theorem anyOf_exists (pf : Bytes → Option (BitVec 64)) : ∀ j : J, j.AllNums (fun t => pf t ≠ none) → ∃ g, AnyOf pf j g
  | .null, _ => ⟨_, .null⟩
  | .bool b, _ => ⟨_, .bool b⟩
  | .str s, _ => ⟨_, .str s⟩
  | .num t, h => by
    cases hf : pf t with
    | none => exact absurd hf h
    | some f => exact ⟨_, .num t f hf⟩
  | .arr js, h => by
    obtain ⟨gs, hl, hg⟩ := anyOfL_exists pf js h
    exact ⟨_, .arr js gs hl hg⟩
  | .obj ms, h => by
    obtain ⟨kvs, h1, h2, h3⟩ := anyOfM_exists pf ms h
    exact ⟨_, .obj ms kvs h1 h2 h3⟩
termination_by structural j => j
theorem anyOfL_exists (pf : Bytes → Option (BitVec 64)) : ∀ js : List J, AllNumsL (fun t => pf t ≠ none) js →
    ∃ gs : List AnyVal, js.length = gs.length ∧ ∀ (i : Nat) j g, js[i]? = some j → gs[i]? = some g → AnyOf pf j g
  | [], _ => ⟨[], rfl, by simp⟩
  | j :: js, h => by
    obtain ⟨g, hg⟩ := anyOf_exists pf j h.1
    obtain ⟨gs, hl, hgs⟩ := anyOfL_exists pf js h.2
    refine ⟨g :: gs, by simp [hl], fun i a b ha hb => ?_⟩
    cases i with
    | zero => simp at ha hb; subst ha hb; exact hg
    | succ i => exact hgs i a b (by simpa using ha) (by simpa using hb)
termination_by structural js => js
theorem anyOfM_exists (pf : Bytes → Option (BitVec 64)) : ∀ ms : List Mem, AllNumsM (fun t => pf t ≠ none) ms →
    ∃ kvs : List (Bytes × AnyVal), (kvs.map Prod.fst).Nodup ∧ (∀ k, (lastOf k ms).isSome = (anyFind k kvs).isSome) ∧
      ∀ k j g, lastOf k ms = some j → anyFind k kvs = some g → AnyOf pf j g
  | [], _ => ⟨[], by simp, fun k => rfl, fun k j g h => by cases h⟩
  | ⟨k0, v⟩ :: ms, h => by
    obtain ⟨g0, hg0⟩ := anyOf_exists pf v h.1
    obtain ⟨kvs, h1, h2, h3⟩ := anyOfM_exists pf ms h.2
    cases hl : lastOf k0 ms with
    | some w =>
      have hsame : ∀ k, lastOf k (⟨k0, v⟩ :: ms) = lastOf k ms := fun k => by
        rw [lastOf]
        cases hk : lastOf k ms with
        | some _ => rfl
        | none =>
          have : k0 ≠ k := by rintro rfl; rw [hl] at hk; cases hk
          rw [if_neg this]
      exact ⟨kvs, h1, fun k => by rw [hsame]; exact h2 k, fun k j g hj hg => h3 k j g (by rw [← hsame]; exact hj) hg⟩
    | none =>
      have hnf : anyFind k0 kvs = none := by
        have := h2 k0
        rw [hl] at this
        cases hf : anyFind k0 kvs with
        | none => rfl
        | some _ => rw [hf] at this; cases this
      have hstep : ∀ k, lastOf k (⟨k0, v⟩ :: ms) = if k0 = k then some v else lastOf k ms := fun k => by
        rw [lastOf]
        by_cases hk : k0 = k
        · subst hk; rw [hl, if_pos rfl]
        · rw [if_neg hk, if_neg hk]
          cases lastOf k ms <;> rfl
      refine ⟨(k0, g0) :: kvs, ?_, fun k => ?_, fun k j g hj hg => ?_⟩
      · simp only [List.map_cons, List.nodup_cons]
        exact ⟨anyFind_none.1 hnf, h1⟩
      · rw [hstep, anyFind]
        by_cases hk : k0 = k
        · rw [if_pos hk, if_pos hk]; rfl
        · rw [if_neg hk, if_neg hk]; exact h2 k
      · rw [hstep] at hj
        rw [anyFind] at hg
        by_cases hk : k0 = k
        · rw [if_pos hk] at hj hg; cases hj; cases hg; exact hg0
        · rw [if_neg hk] at hj hg; exact h3 k j g hj hg
termination_by structural ms => ms
end

/-- The assumptions about encoding/json can be met, for any ParseFloat. -/
theorem C64_decoder_exists (pf : Bytes → Option (BitVec 64)) : ∃ dec, GoodDec pf dec := by
  classical
  refine ⟨fun s => if h : ∃ g j, JText s j ∧ j.depth ≤ maxNesting ∧ j.AllNums (fun t => pf t ≠ none) ∧ AnyOf pf j g then some h.choose else none, fun s j hj hd hn => ?_, fun s g hg => ?_⟩
  · obtain ⟨g, hg⟩ := anyOf_exists pf j hn
    have h : ∃ g j, JText s j ∧ j.depth ≤ maxNesting ∧ j.AllNums (fun t => pf t ≠ none) ∧ AnyOf pf j g := ⟨g, j, hj, hd, hn, hg⟩
    refine ⟨h.choose, dif_pos h, ?_⟩
    obtain ⟨j', hj', -, -, hg'⟩ := h.choose_spec
    rw [jtext_unique hj hj']
    exact hg'
  · split at hg
    · rename_i h
      obtain ⟨j, hj, hd, ha, -⟩ := h.choose_spec
      obtain ⟨j', h1, h2⟩ := jtext_raw hj
      exact ⟨j', h1, by rw [← h2.1]; exact hd, (h2.2 _).1 ha⟩
    · cases hg

theorem vtab_quoted : Quoted [0x22, 0xB, 0x22] :=
  .str [0xB] [] ⟨.char _ _ (by decide) (by decide) .nil, fun h => by have := h 0xB (by simp); simp at this⟩ .nil

/-- A vertical tab in a string: Marshal writes it as it is and encoding/json refuses the text. -/
theorem C64_counterexample : ¬ C64_statement := by
  intro h
  obtain ⟨dec, hdec⟩ := C64_decoder_exists sampleEnv.parseFloat
  obtain ⟨g, hg, _⟩ := h sampleEnv insertionSort emptyOptions dec (.str [0xB]) insertionSort_good hdec (.scalar _ trivial (.str _))
    (her_leaf ⟨[0xB], by decide, by decide⟩ trivial) rfl trivial
  have hm : marshal sampleEnv insertionSort emptyOptions (.str [0xB]) [] = .ok ([0x22, 0xB, 0x22], none) := by decide +kernel
  have hno := dec_refuses hdec (s := [0x22, 0xB, 0x22]) vtab_quoted fun j hj => not_json (by decide +kernel) ⟨j, hj⟩
  unfold exportAny at hg
  rw [hm] at hg
  simp only [hno] at hg
  cases hg

/-- A NaN inside an object: Marshal drops the error (C12) and the broken text makes Export fail. -/
theorem C64_nan_inside (dec : AnyDec) (hdec : GoodDec sampleEnv.parseFloat dec) :
    ∃ v, Built sampleEnv (ApiScalar sampleEnv) v ∧ (∃ b, marshal sampleEnv insertionSort emptyOptions v [] = .ok (b, none)) ∧
      exportAny sampleEnv insertionSort emptyOptions dec v = .err .other := by
  obtain ⟨v, b, hv, hb, rfl, hno⟩ := C10_counterexample_nan
  refine ⟨v, hv, ⟨_, hb⟩, ?_⟩
  have := dec_refuses hdec (s := asc "{\"a\":}") (.char 0x7B _ (by decide) (.str [0x61] [0x3A, 0x7D]
    (qgood_strBody (.char 0x61 [] [] (by unfold Scalar; decide) (by decide) (by decide) (by decide) .nil)) (.char _ _ (by decide) (.char _ _ (by decide) .nil)))) fun j hj => hno ⟨j, hj⟩
  unfold exportAny
  rw [hb]
  simp only [this]

/-- A value that nests deeper than 10000 cannot be exported, though Marshal writes it (C10) and Unmarshal reads it (C02). -/
theorem C64_too_deep (E : Env) (S : SortFn) (d : Opt) (dec : AnyDec) (v : V) (hS : GoodSort S) (hd : GoodDec E.parseFloat dec) (hk : Her KeysNodup v)
    (hp : Her (Exportable E.parseFloat) v) (hn : Her (NothingOmitted (combineOptions d [])) v) (hi : WsIndent (combineOptions d []).indent)
    (hdeep : ¬ Nests maxNesting v) : exportAny E S d dec v = .err .other := by
  have hm := exportable_marshalable hk hp
  have hpr := exportable_printable (E := E) (o := combineOptions d []) hp
  obtain ⟨b, hb⟩ := C10_no_error_partial E S d v [] hm hpr
  obtain ⟨j, hj, hs⟩ := C10_valid_json_partial E S d v [] b hS hm hpr hn hi hb
  have hno : dec b = none := dec_deep hd hj (by
    apply Classical.byContradiction
    intro hle
    refine hdeep fun l c hc hsc => ?_
    have := shows_depth_ge hs hn hc hsc
    omega)
  unfold exportAny
  rw [hb]
  simp only [hno]

/-- `n` arrays around a null -/
def nested : Nat → V
  | 0 => .null
  | n + 1 => .arr [nested n]

theorem nested_her {P : V → Prop} (h0 : P .null) (h1 : ∀ xs, P (.arr xs)) : ∀ n, Her P (nested n)
  | 0 => her_leaf h0 trivial
  | n + 1 => her_of_kids (h1 _) fun c hc => by
    have : c = nested n := by simpa [nested, Kid] using hc
    subst this; exact nested_her h0 h1 n

theorem nested_at : ∀ n, (nested (n + 1)).at (List.replicate n (.idx 0)) = some (.arr [.null])
  | 0 => rfl
  | n + 1 => by
    show (nested (n + 1)).at (List.replicate n (.idx 0)) = _
    exact nested_at n

theorem nested_nests : ∀ n, Nests n (nested n)
  | 0, l, c, hc, hs => by
    cases l with
    | nil => simp only [nested, V.at, Option.some.injEq] at hc; subst hc; exact absurd trivial hs
    | cons s l => cases s <;> simp [nested, V.at, V.child] at hc
  | n + 1, l, c, hc, hs => by
    cases l with
    | nil => simp
    | cons s l =>
      cases s with
      | key k => simp [nested, V.at, V.child] at hc
      | idx i =>
        cases i with
        | zero => have := nested_nests n l c (by simpa [nested, V.at, V.child] using hc) hs; simp; omega
        | succ i => simp [nested, V.at, V.child] at hc

-- 10000 arrays are exported, 10001 are not
example (dec : AnyDec) (hdec : GoodDec sampleEnv.parseFloat dec) : (∃ g, exportAny sampleEnv insertionSort emptyOptions dec (nested 10000) = .ok g ∧ Exported sampleEnv.parseFloat (nested 10000) g) ∧
    exportAny sampleEnv insertionSort emptyOptions dec (nested 10001) = .err .other :=
  ⟨C64_any_partial _ _ _ dec _ insertionSort_good hdec (nested_her trivial (fun _ => trivial) _) (nested_her trivial (fun _ => trivial) _) (nested_her trivial (fun _ => trivial) _) trivial (nested_nests _),
   C64_too_deep _ _ _ dec _ insertionSort_good hdec (nested_her trivial (fun _ => trivial) _) (nested_her trivial (fun _ => trivial) _) (nested_her trivial (fun _ => trivial) _) trivial fun h => by
    have := h _ _ (nested_at 10000) (by simp [IsScalar])
    rw [List.length_replicate] at this
    exact absurd this (by decide)⟩

-- the hypotheses of C64_any_partial
example : Her (Exportable fun _ => some 0x3FF0000000000000#64) (.obj 1 [⟨asc "a", 0, .arr [.str [0xC3, 0xA9], .num (asc "1") default, .null]⟩] none) := by
  refine her_of_kids (fun e he => ?_) fun c hc => ?_
  · have : e = ⟨asc "a", 0, .arr [.str [0xC3, 0xA9], .num (asc "1") default, .null]⟩ := by simpa using he
    subst this
    exact ⟨⟨[0x61], by decide, by decide⟩, by decide⟩
  · have : c = .arr [.str [0xC3, 0xA9], .num (asc "1") default, .null] := by
      obtain ⟨e, he, rfl⟩ := hc
      have : e = ⟨asc "a", 0, .arr [.str [0xC3, 0xA9], .num (asc "1") default, .null]⟩ := by simpa using he
      subst this; rfl
    subst this
    refine her_of_kids trivial fun c hc => ?_
    have : c = .str [0xC3, 0xA9] ∨ c = .num (asc "1") default ∨ c = .null := by simpa [Kid] using hc
    rcases this with rfl | rfl | rfl
    · exact her_leaf ⟨⟨[0xE9], by decide, by decide⟩, by decide⟩ trivial
    · exact her_leaf ⟨Or.inl ⟨false, [0x31], Or.inr ⟨0x31, [], rfl, by decide, by decide, by simp [Digits]⟩, rfl⟩, by simp⟩ trivial
    · exact her_leaf trivial trivial

end JV
