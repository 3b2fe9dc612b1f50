import Verif.Proofs.Holder
import Verif.Props.StdJson
/-!
C96: values of this package as parts of other Go data that is given to encoding/json: `*V` or `V` in slices, arrays, maps and structs.
-/
namespace JV
open Spec

mutual
theorem each_and {P Q : Site → V → Prop} : (a : Bool) → (h : Hold) → Each P a h → Each Q a h → Each (fun s v => P s v ∧ Q s v) a h
  | _, .ptr _, h1, h2 => ⟨h1, h2⟩
  | _, .own _, h1, h2 => ⟨h1, h2⟩
  | a, .list k xs, h1, h2 => eachL_and (elemAddr k a) xs h1 h2
  | a, .named k xs, h1, h2 => eachL_and (fieldAddr k a) xs h1 h2
theorem eachL_and {P Q : Site → V → Prop} : (a : Bool) → (h : HoldList) → EachL P a h → EachL Q a h → EachL (fun s v => P s v ∧ Q s v) a h
  | _, .nil, _, _ => trivial
  | a, .cons _ _ x xs, h1, h2 => ⟨each_and a x h1.1 h2.1, eachL_and a xs h1.2 h2.2⟩
end

theorem nests_mono {m n : Nat} {v : V} (h : Nests m v) (hmn : m ≤ n) : Nests n v := fun l c h1 h2 => Nat.lt_of_lt_of_le (h l c h1 h2) hmn

mutual
theorem hnests_each {N : Nat} : (n : Nat) → n ≤ N → (a : Bool) → (h : Hold) → HNests n h → Each (fun _ v => Nests N v) a h
  | n, hn, _, .ptr _, h => nests_mono h hn
  | n, hn, _, .own _, h => nests_mono h hn
  | n, hn, a, .list k xs, h => hnestsL_each (n - 1) (by omega) (elemAddr k a) xs h.2
  | n, hn, a, .named k xs, h => hnestsL_each (n - 1) (by omega) (fieldAddr k a) xs h.2
theorem hnestsL_each {N : Nat} : (n : Nat) → n ≤ N → (a : Bool) → (h : HoldList) → HNestsL n h → EachL (fun _ v => Nests N v) a h
  | n, hn, _, .nil, _ => trivial
  | n, hn, a, .cons _ _ x xs, h => ⟨hnests_each n hn a x h.1, hnestsL_each n hn a xs h.2⟩
end

/-- What stands at the place of a value: its document, null for a nil pointer — and the empty object for a `V` that is not addressable. -/
def StandsFor (E : Env) (o : Opt) : Site → V → J → Prop
  | .loose, _, j => j = .obj []
  | .ptr, .nilp, j => j = .null
  | _, v, j => Shows E o (fun _ _ _ => True) [] v j

/-- a value that json.Marshal writes (C72), or a nil pointer, or anything where it is not looked at -/
def FitsJson (E : Env) (d : Opt) (s : Site) (v : V) : Prop :=
  s = .loose ∨ s = .ptr ∧ v = .nilp ∨ Marshalable v ∧ Her (Printable E (combineOptions d []) JNum (fun s => 0xB ∉ s)) v ∧
    Her (NothingOmitted (combineOptions d [])) v ∧ Nests maxNesting v

theorem jsonMarshal_jval (E : Env) (S : SortFn) (d : Opt) (valid : Bytes → Bool) (v : V) (hS : GoodSort S) (hvalid : GoodCheck valid) (hv : Marshalable v)
    (hp : Her (Printable E (combineOptions d []) JNum (fun s => 0xB ∉ s)) v) (hn : Her (NothingOmitted (combineOptions d [])) v)
    (hi : WsIndent (combineOptions d []).indent) (hd : Nests maxNesting v) :
    ∃ t j, jsonMarshal E S d valid v = .ok t ∧ JVal t j ∧ Shows E (combineOptions d []) (fun _ _ _ => True) [] v j := by
  obtain ⟨b, t, j, h1, h2, ⟨w1, u, w2, rfl, i1, i2, i3⟩, -, h4, -⟩ := (C72_json_marshal_partial E S d valid v hS hvalid hv hp hn hi).1 hd
  obtain ⟨t', k1, -, k3⟩ := compact_val i2
  refine ⟨t, j, h2, ?_, h4⟩
  rw [jsonMarshal_ok h1] at h2
  split at h2
  · cases h2
    have := compact_ws i3 []
    rw [List.append_nil] at this
    rw [List.append_assoc, compact_ws i1, k3, this]
    simpa [compact] using k1
  · cases h2

theorem marshalable_ne {v : V} (h : Marshalable v) : v ≠ .nilp := by
  obtain ⟨_, h, _⟩ := h
  intro e
  subst e
  exact h [] rfl

theorem place_of_shows {E : Env} {o : Opt} {s : Site} {v : V} {j : J} (hs : s ≠ .loose) (hv : v ≠ .nilp) (h : Shows E o (fun _ _ _ => True) [] v j) : StandsFor E o s v j := by
  cases s with
  | loose => exact absurd rfl hs
  | own => exact h
  | ptr => cases v <;> first | exact h | exact absurd rfl hv

/-- C96 as stated. False: see `C96_counterexample`. -/
def C96_statement : Prop := ∀ (E : Env) (S : SortFn) (D : DecFn) (d : Opt) (valid : Bytes → Bool) (addr : Bool) (h : Hold), GoodSort S → GoodCheck valid → Lits h → Distinct h →
  Each (fun _ v => Her KeysNodup v ∧ Her Writable v ∧ Her (Portable E) v) addr h → (combineOptions d []).omitNull = false → WsIndent (combineOptions d []).indent → HNests maxNesting h →
  ∃ t h', jsonMarshalHold E S d valid addr h = .ok t ∧ JsonUnmarshalHold E valid h t h' ∧ Matches (fun _ v w => equal D v w = true) h h'

/-- What json.Marshal writes for data that holds values, under the conditions of C72 for each of them: a JSON text that has at the place of each `*V`, and of
each `V` whose address can be taken (in a slice, or in data that a pointer was given to), the document of the value, and null for a nil pointer. At the
place of a `V` that cannot be addressed — in a map, or in a struct or array that was given itself — it has `{}`, whatever the value. -/
theorem C96_places (E : Env) (S : SortFn) (d : Opt) (valid : Bytes → Bool) (addr : Bool) (h : Hold) (hS : GoodSort S) (hvalid : GoodCheck valid) (hl : Lits h)
    (hi : WsIndent (combineOptions d []).indent) (hf : Each (FitsJson E d) addr h) :
    ∃ t j, jsonMarshalHold E S d valid addr h = .ok t ∧ JVal t j ∧ Stands (StandsFor E (combineOptions d [])) addr h j := by
  refine enc_stands addr h hl (Each.mono (fun s v hv => ?_) addr h hf)
  unfold Written
  split
  · rename_i hs; rw [hs]; rfl
  · rename_i hs
    rcases hv with h | ⟨rfl, rfl⟩ | ⟨h1, h2, h3, h4⟩
    · exact absurd h hs
    · exact ⟨nullText, .null, rfl, .null, rfl⟩
    · obtain ⟨t, j, i1, i2, i3⟩ := jsonMarshal_jval E S d valid v hS hvalid h1 h2 h3 hi h4
      exact ⟨t, j, i1, i2, place_of_shows hs (marshalable_ne h1) i3⟩

/-- If json.Marshal would fail for one of the values that it looks at, it gives no text for the whole. -/
theorem C96_all_or_nothing (E : Env) (S : SortFn) (d : Opt) (valid : Bytes → Bool) (addr : Bool) (h : Hold) (t : Bytes) (ht : jsonMarshalHold E S d valid addr h = .ok t) :
    Each (fun s v => s ≠ .loose → ∃ t, jsonMarshal E S d valid v = .ok t) addr h := enc_ok addr h t ht

/-- what comes back at the place of a value: nil for a nil pointer and for a pointer to a null, else an Equal value -/
def Back (D : DecFn) (s : Site) (v w : V) : Prop :=
  (s = .ptr ∧ (v = .nilp ∨ v = .null) → w = .nilp) ∧ (¬ (s = .ptr ∧ (v = .nilp ∨ v = .null)) → w ≠ .nilp ∧ equal D v w = true)

/-- json.Unmarshal of what json.Marshal wrote, into a new variable of the same type: Equal values at all places, if each `V` is addressable when it is
written and each value is as in C72 — except that a `*V` with a JSON null comes back as a nil pointer. -/
theorem C96_roundtrip_partial (E : Env) (S : SortFn) (D : DecFn) (d : Opt) (valid : Bytes → Bool) (addr : Bool) (h : Hold) (hS : GoodSort S) (hvalid : GoodCheck valid)
    (hl : Lits h) (hdis : Distinct h)
    (hf : Each (fun s v => s ≠ .loose ∧ (s = .ptr ∧ v = .nilp ∨ Her KeysNodup v ∧ Her Writable v ∧ Her (Portable E) v)) addr h)
    (ho : (combineOptions d []).omitNull = false) (hi : WsIndent (combineOptions d []).indent) (hdeep : HNests maxNesting h) :
    ∃ t h', jsonMarshalHold E S d valid addr h = .ok t ∧ JsonUnmarshalHold E valid h t h' ∧ Matches (Back D) h h' := by
  have hn : ∀ v : V, Her (NothingOmitted (combineOptions d [])) v := fun v l c hc => by cases c <;> simp [NothingOmitted, ho]
  have hall := each_and addr h hf (hnests_each maxNesting (Nat.le_refl _) addr h hdeep)
  have hret := enc_returns (f := jsonMarshal E S d valid) (u := fun b w => unmarshalJSON E .notExist b = .ok (w, none)) (Q := Back D) addr h hl hdis
    (Each.mono (fun s v hv => by
      obtain ⟨⟨hs, hv⟩, hd⟩ := hv
      refine ⟨hs, ?_⟩
      rcases hv with ⟨rfl, rfl⟩ | ⟨h1, h2, h3⟩
      · exact ⟨nullText, .null, .nilp, rfl, .null, by simp, fun _ => rfl, fun h => absurd ⟨rfl, .inl rfl⟩ h⟩
      · have hm := writable_marshalable h1 h2
        obtain ⟨t, j, i1, i2, i3⟩ := jsonMarshal_jval E S d valid v hS hvalid hm (writable_printable h2) (hn v) hi hd
        obtain ⟨t', w, k1, k2, k3⟩ := C72_roundtrip_partial E S D d valid v .notExist hS hvalid (by simp) h1 h2 h3 ho hi hd
        obtain rfl : t = t' := by rw [i1] at k1; cases k1; rfl
        have hnull : t = nullText ↔ v = .null := by
          constructor
          · intro e
            subst e
            have hj : j = .null := (jval_unique i2 nullText .null [] [] .null numEnd_nil numEnd_nil rfl).2
            subst hj
            cases i3 with
            | null => rfl
            | spec _ src n s _ hs _ =>
              exfalso
              have := her_self h2
              simp [special, jnum_ne_nil this] at hs
          · rintro rfl
            cases i3
            cases i2
            rfl
        have hun : unmarshalJSON E .notExist t = .ok (w, none) := by
          unfold jsonUnmarshal at k2
          split at k2
          · exact k2
          · cases k2
        by_cases hc : s = .ptr ∧ t = nullText
        · refine ⟨t, j, .nilp, i1, i2, by rw [if_pos hc], fun _ => rfl, fun h => ?_⟩
          exact absurd ⟨hc.1, .inr (hnull.1 hc.2)⟩ h
        · refine ⟨t, j, w, i1, i2, by rw [if_neg hc]; exact hun, fun h => ?_, fun _ => ⟨?_, k3⟩⟩
          · rcases h.2 with h' | h'
            · exact absurd h' (marshalable_ne hm)
            · exact absurd ⟨h.1, hnull.2 h'⟩ hc
          · rintro rfl
            cases v <;> simp [equal] at k3) addr h hall)
  obtain ⟨t, -, h', h1, -, h3, h4⟩ := hret
  refine ⟨t, h', h1, ⟨?_, h3⟩, h4⟩
  obtain ⟨t', j, i1, i2, i3⟩ := enc_stands (f := jsonMarshal E S d valid) (P := fun s v j => (s = .ptr ∧ v = .nilp ∧ j = .null) ∨
      (Her KeysNodup v ∧ Shows E (combineOptions d []) (fun _ _ _ => True) [] v j)) addr h hl (Each.mono (fun s v hv => by
    obtain ⟨⟨hs, hv⟩, hd⟩ := hv
    unfold Written
    rw [if_neg hs]
    rcases hv with ⟨rfl, rfl⟩ | ⟨h1, h2, h3⟩
    · exact ⟨nullText, .null, rfl, .null, .inl ⟨rfl, rfl, rfl⟩⟩
    · obtain ⟨t, j, i1, i2, i3⟩ := jsonMarshal_jval E S d valid v hS hvalid (writable_marshalable h1 h2) (writable_printable h2) (hn v) hi hd
      exact ⟨t, j, i1, i2, .inr ⟨h1, i3⟩⟩) addr h hall)
  obtain rfl : t = t' := by rw [h1] at i1; cases i1; rfl
  refine check_passes hvalid (j := j) ⟨[], t, [], by simp, (fun c hc => by cases hc), i2, fun c hc => by cases hc⟩ ?_
  refine stands_depth ?_ addr h j maxNesting i3 hdeep
  rintro s v j n (⟨-, -, rfl⟩ | ⟨hk, hs⟩) hv
  · simp [J.depth]
  · exact shows_depth_le hs hk hv

/-- json.Unmarshal leaves one thing only. -/
theorem C96_one_result (E : Env) (valid : Bytes → Bool) (h : Hold) (t : Bytes) (x y : Hold) (hx : JsonUnmarshalHold E valid h t x) (hy : JsonUnmarshalHold E valid h t y) : x = y :=
  dec_unique (fun _ _ _ h1 h2 => by rw [h1] at h2; cases h2; rfl) h t x y hx.2 hy.2

/-- json.Unmarshal reads nothing that is not JSON by its own check, even where Unmarshal of this package would (C02). -/
theorem C96_checked (E : Env) (valid : Bytes → Bool) (h : Hold) (t : Bytes) (x : Hold) (hvalid : GoodCheck valid) (hx : JsonUnmarshalHold E valid h t x) :
    ∃ j, GText t j ∧ j.depth ≤ maxNesting := (hvalid t).1 hx.1

/-- Where a `V` counts as addressable: not in a map, in a struct or array if a pointer was given, always in a slice. What is written in a one-element container,
if json.Marshal of a pointer to the value gives `t`. -/
theorem C96_containers (E : Env) (S : SortFn) (d : Opt) (valid : Bytes → Bool) (k lit t : Bytes) (v : V) (ht : jsonMarshal E S d valid v = .ok t) :
    (∀ addr, jsonMarshalHold E S d valid addr (.named true (.cons k lit (.own v) .nil)) = .ok (asc "{" ++ lit ++ asc ":{}}")) ∧
    jsonMarshalHold E S d valid false (.named false (.cons k lit (.own v) .nil)) = .ok (asc "{" ++ lit ++ asc ":{}}") ∧
    jsonMarshalHold E S d valid true (.named false (.cons k lit (.own v) .nil)) = .ok (asc "{" ++ lit ++ asc ":" ++ t ++ asc "}") ∧
    jsonMarshalHold E S d valid false (.list false (.cons k lit (.own v) .nil)) = .ok (asc "[{}]") ∧
    jsonMarshalHold E S d valid true (.list false (.cons k lit (.own v) .nil)) = .ok (asc "[" ++ t ++ asc "]") ∧
    (∀ addr, jsonMarshalHold E S d valid addr (.list true (.cons k lit (.own v) .nil)) = .ok (asc "[" ++ t ++ asc "]")) ∧
    (∀ addr m, jsonMarshalHold E S d valid addr (.named m (.cons k lit (.ptr v) .nil)) = .ok (asc "{" ++ lit ++ asc ":" ++ t ++ asc "}")) := by
  have h1 : asc "{" = [0x7B] := by decide
  have h2 : asc ":{}}" = [0x3A, 0x7B, 0x7D, 0x7D] := by decide
  have h3 : asc ":" = [0x3A] := by decide
  have h4 : asc "}" = [0x7D] := by decide
  have h5 : asc "[" = [0x5B] := by decide
  have h6 : asc "]" = [0x5D] := by decide
  have h7 : asc "[{}]" = [0x5B, 0x7B, 0x7D, 0x5D] := by decide
  rw [h1, h2, h3, h4, h5, h6, h7]
  refine ⟨fun addr => ?_, ?_, ?_, ?_, ?_, fun addr => ?_, fun addr m => ?_⟩ <;>
    simp [jsonMarshalHold, encHold, encElems, encFields, elemAddr, fieldAddr, ht, R.bind_ok]

/-- A `V` that is given itself, not a pointer to it: `{}` is written, and an object is read back. -/
theorem C96_counterexample : ¬ C96_statement := by
  intro h
  obtain ⟨valid, hvalid⟩ := C72_check_exists
  obtain ⟨t, h', h1, ⟨-, w, rfl, h2⟩, w', he, h3⟩ := h sampleEnv insertionSort (fun _ => none) emptyOptions valid false (.own (.bool true)) insertionSort_good hvalid trivial trivial
    ⟨her_leaf trivial trivial, her_leaf trivial trivial, her_leaf trivial trivial⟩ rfl trivial (fun l c hc hs => by
      cases l with
      | nil => cases hc; exact absurd trivial hs
      | cons a l => cases a <;> simp [V.at, V.child] at hc)
  cases he
  have : t = [0x7B, 0x7D] := by
    have : (R.ok [0x7B, 0x7D] : R Bytes) = .ok t := h1
    cases this; rfl
  subst this
  have hr : unmarshalJSON sampleEnv .notExist [0x7B, 0x7D] = .ok (.obj 0 [] none, none) := by decide +kernel
  rw [hr] at h2
  cases h2
  simp [equal] at h3

/-- A pointer to a null is nil after the round trip: json.Unmarshal does not call UnmarshalJSON for it. A `V` with a null comes back as a null. -/
theorem C96_null (E : Env) (valid : Bytes → Bool) (hvalid : GoodCheck valid) :
    (∀ v h', JsonUnmarshalHold E valid (.ptr v) (asc "null") h' ↔ h' = .ptr .nilp) ∧
    (∀ v h', JsonUnmarshalHold E valid (.own v) (asc "null") h' ↔ h' = .own .null) := by
  have hok : valid (asc "null") = true := check_passes hvalid (j := .null) ⟨[], [0x6E, 0x75, 0x6C, 0x6C], [], by decide, (fun c hc => by cases hc), .null, fun c hc => by cases hc⟩ (by simp [J.depth])
  have hun : unmarshalJSON E .notExist (asc "null") = .ok (.null, none) := by
    have hL : LText (Reads E) (asc "null") .null := ⟨[], [0x6E, 0x75, 0x6C, 0x6C], [], by decide, (fun c hc => by cases hc), .null, fun c hc => by cases hc⟩
    obtain ⟨w, h3, h4⟩ := read_back hL
    have hw : w = .null := by cases h4; rfl
    subst hw
    rcases C45_unmarshalJSON E .notExist (by simp) (asc "null") with ⟨w', h5, h6⟩ | ⟨w', e, h5, _⟩
    · rw [h3] at h5; cases h5; exact h6
    · rw [h3] at h5; cases h5
  refine ⟨fun v h' => ⟨?_, ?_⟩, fun v h' => ⟨?_, ?_⟩⟩
  · rintro ⟨-, w, rfl, h⟩
    rw [if_pos (by decide)] at h
    rw [h]
  · rintro rfl
    exact ⟨hok, .nilp, rfl, by rw [if_pos (by decide)]⟩
  · rintro ⟨-, w, rfl, h⟩
    rw [hun] at h; cases h; rfl
  · rintro rfl
    exact ⟨hok, .null, rfl, hun⟩

-- the hypotheses: a struct {"a": []V{true}, "b": *V null, "c": nil *V}, given by pointer or not
example : Lits (.named false (.cons (asc "a") (asc "\"a\"") (.list true (.cons [] [] (.own (.bool true)) .nil)) (.cons (asc "b") (asc "\"b\"") (.ptr .null)
      (.cons (asc "c") (asc "\"c\"") (.ptr .nilp) .nil)))) ∧
    Distinct (.named false (.cons (asc "a") (asc "\"a\"") (.list true (.cons [] [] (.own (.bool true)) .nil)) (.cons (asc "b") (asc "\"b\"") (.ptr .null)
      (.cons (asc "c") (asc "\"c\"") (.ptr .nilp) .nil)))) ∧
    ∀ addr, Each (fun s v => s ≠ .loose ∧ (s = .ptr ∧ v = .nilp ∨ Her KeysNodup v ∧ Her Writable v ∧ Her (Portable sampleEnv) v)) addr
      (.named false (.cons (asc "a") (asc "\"a\"") (.list true (.cons [] [] (.own (.bool true)) .nil)) (.cons (asc "b") (asc "\"b\"") (.ptr .null)
      (.cons (asc "c") (asc "\"c\"") (.ptr .nilp) .nil)))) := by
  have hlit : ∀ c : UInt8, 0x61 ≤ c.toNat → c.toNat ≤ 0x63 → JStr [0x22, c, 0x22] [c] := fun c h1 h2 => by
    refine ⟨[c], rfl, ?_⟩
    have hu : utf8 c.toNat = [c] := by unfold utf8; rw [if_pos (by omega)]; simp
    have := StrBody.char c.toNat [] [] (by unfold Scalar; omega) (by omega) (by omega) (by omega) .nil
    rw [hu] at this
    exact this
  refine ⟨⟨fun _ => hlit 0x61 (by decide) (by decide), ⟨(fun h => nomatch h), trivial, trivial⟩, fun _ => hlit 0x62 (by decide) (by decide), trivial,
    fun _ => hlit 0x63 (by decide) (by decide), trivial, trivial⟩, ⟨by decide +kernel, ⟨trivial, trivial⟩, trivial, trivial, trivial⟩, fun addr => ?_⟩
  refine ⟨⟨⟨by simp [siteOf, elemAddr], .inr ⟨her_leaf trivial trivial, her_leaf trivial trivial, her_leaf trivial trivial⟩⟩, trivial⟩,
    ⟨by simp, .inr ⟨her_leaf trivial trivial, her_leaf trivial trivial, her_leaf trivial trivial⟩⟩, ⟨by simp, .inl ⟨rfl, rfl⟩⟩, trivial⟩

end JV
