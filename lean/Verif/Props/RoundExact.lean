import Verif.Proofs.RoundExact
import Verif.Props.Compare
/-!
C09: exactly which values of the public API survive Marshal and Unmarshal.
-/
namespace JV
open Spec

/-- Unmarshal takes what Marshal wrote of a value built by public calls (without NaN and infinities) exactly if it takes the text of every number in it. -/
theorem C09_accepted (E : Env) (S : SortFn) (d : Opt) (v : V) (opts : List MOpt) (hS : GoodSort S) (hv : Built E (ApiScalar E) v)
    (hf : Her (fun c => ∀ src n, c = .num src n → src ≠ []) v) (ho : (combineOptions d opts).omitNull = false) (hi : BlankIndent (combineOptions d opts).indent) :
    (∃ b w, marshal E S d v opts = .ok (b, none) ∧ goUnmarshal E b = .ok (b, w, none)) ↔ Her (fun c => ∀ src n, c = .num src n → Reads E src) v := by
  have hm := (api_marshalable hv).1
  have hsol : Her Solid v := fun l c hc => (built_solid (built_mono (fun _ h => (api_numTexts h).2) hv) l c hc).2
  have hn : Her NumShape v := fun l c hc => (built_numShape (fun _ h => api_numShape h) hv l c hc).2
  constructor
  · rintro ⟨b, w, h1, h2⟩
    exact (marshal_reads S d hS hm hsol hn hf ho hi h1 (goUnmarshal_ok.1 h2).2).1
  · intro hr
    have hpr : Her (Printable E (combineOptions d opts) (Reads E) (fun _ => True)) v := fun l c hc => by
      have h1 := hsol l c hc
      have h2 := hr l c hc
      cases c with
      | nilp => exact absurd rfl h1.1
      | notExist => exact absurd rfl h1.2
      | num src n =>
        have hs : special src n = none := by simp [special, hf l _ hc src n rfl]
        exact ⟨fun _ => h2 src n rfl, fun s h => by rw [hs] at h; cases h⟩
      | obj => intro _ _; trivial
      | _ => trivial
    have hb := marshal_printable (S := S) d hm (her_self hpr)
    obtain ⟨j, w, -, h2, -⟩ := C12_replaced E S d v opts _ hS hm hpr hi hb
    exact ⟨_, w, hb, h2⟩

/-- ... and reads an Equal value back exactly if, in addition, all strings and keys are valid UTF-8. -/
theorem C09_exact (E : Env) (S : SortFn) (D : DecFn) (d : Opt) (v : V) (opts : List MOpt) (hS : GoodSort S) (hv : Built E (ApiScalar E) v)
    (hf : Her (fun c => ∀ src n, c = .num src n → src ≠ []) v) (ho : (combineOptions d opts).omitNull = false) (hi : BlankIndent (combineOptions d opts).indent) :
    (∃ b w, marshal E S d v opts = .ok (b, none) ∧ goUnmarshal E b = .ok (b, w, none) ∧ equal D v w = true) ↔
    Her (fun c => ∀ src n, c = .num src n → Reads E src) v ∧ Her Utf8Node v := by
  have hm := (api_marshalable hv).1
  have hsol : Her Solid v := fun l c hc => (built_solid (built_mono (fun _ h => (api_numTexts h).2) hv) l c hc).2
  have hn : Her NumShape v := fun l c hc => (built_numShape (fun _ h => api_numShape h) hv l c hc).2
  constructor
  · rintro ⟨b, w, h1, h2, h3⟩
    have hw := (goUnmarshal_ok.1 h2).2
    obtain ⟨h4, h5⟩ := marshal_reads S d hS hm hsol hn hf ho hi h1 hw
    exact ⟨h4, utf8_equalTo ((equal_iff D v w hm.1 (her_unmarshal_keys hw)).1 h3) hm.1 h5⟩
  · rintro ⟨h1, h2⟩
    have hp : Her (Portable E) v := fun l c hc => by
      have h3 := hsol l c hc
      have h4 := h1 l c hc
      have h5 := h2 l c hc
      cases c with
      | nilp => exact absurd rfl h3.1
      | notExist => exact absurd rfl h3.2
      | num src n => exact h4 src n rfl
      | str s => exact h5
      | obj n kvs low => exact h5
      | _ => trivial
    obtain ⟨b, w, h3, h4, h5⟩ := C09_roundtrip_partial E S D d v opts hS hm.1 hp hi
    rw [ho] at h5
    exact ⟨b, w, h3, h4, h5⟩

-- an array with a number of the API meets the hypotheses; both sides of the equivalence occur (C09_counterexample, and the example before it)
example : Built sampleEnv (ApiScalar sampleEnv) (append sampleEnv false newArray { c := newInt64 sampleEnv 7#64 } []).1 ∧
    (append sampleEnv false newArray { c := newInt64 sampleEnv 7#64 } []).1 = .arr [newInt64 sampleEnv 7#64] ∧
    Her (fun c => ∀ src n, c = .num src n → src ≠ []) (.arr [newInt64 sampleEnv 7#64]) := by
  refine ⟨.append _ _ _ _ .array (.scalar _ trivial (.int _)), by decide +kernel, her_of_kids nofun fun c hc => ?_⟩
  have : c = newInt64 sampleEnv 7#64 := by simpa [Kid] using hc
  subst this
  exact her_leaf (fun src n h => by cases h; decide +kernel) trivial

end JV
