import Verif.Spec.Kind
import Verif.Props.Compare
import Verif.Props.Describe
import Verif.Proofs.Exact
import Verif.Proofs.Reformat
/-!
C89: every value is of exactly one kind, which the text tells.
-/
namespace JV
open Spec

/-- Every value but a nil pointer answers the questions about its kind like a value of exactly one kind. -/
theorem C89_one (v : V) (h : v ≠ .nilp) : ∃ k, Answers v k ∧ ∀ k', Answers v k' → k' = k := by
  have uniq : ∀ k, Answers v k → ∀ k', Answers v k' → k' = k := by
    intro k a k' b
    have h1 := a.object.symm.trans b.object
    have h2 := a.array.symm.trans b.array
    have h3 := a.string.symm.trans b.string
    have h4 := a.number.symm.trans b.number
    have h5 := a.boolean.symm.trans b.boolean
    have h6 := a.null.symm.trans b.null
    cases k <;> cases k' <;> first | rfl | simp at h1 h2 h3 h4 h5 h6
  suffices ∃ k, Answers v k by
    obtain ⟨k, hk⟩ := this
    exact ⟨k, hk, uniq k hk⟩
  cases v with
  | nilp => exact absurd rfl h
  | notExist => exact ⟨.nothing, rfl, rfl, rfl, rfl, rfl, rfl, ⟨_, rfl, by decide⟩, ⟨_, _, rfl, rfl, rfl, rfl⟩, ⟨_, _, rfl, rfl, rfl, rfl⟩, ⟨_, rfl, (nomatch ·)⟩⟩
  | str s => exact ⟨.string, rfl, rfl, rfl, rfl, rfl, rfl, ⟨_, rfl, by decide⟩, ⟨_, _, rfl, rfl, rfl, rfl⟩, ⟨_, _, rfl, rfl, rfl, rfl⟩, ⟨_, rfl, (nomatch ·)⟩⟩
  | bool b => exact ⟨.boolean, rfl, rfl, rfl, rfl, rfl, rfl, ⟨_, rfl, by decide⟩, ⟨_, _, rfl, rfl, rfl, rfl⟩, ⟨_, _, rfl, rfl, rfl, rfl⟩, ⟨_, rfl, (nomatch ·)⟩⟩
  | null => exact ⟨.null, rfl, rfl, rfl, rfl, rfl, rfl, ⟨_, rfl, by decide⟩, ⟨_, _, rfl, rfl, rfl, rfl⟩, ⟨_, _, rfl, rfl, rfl, rfl⟩, ⟨_, rfl, (nomatch ·)⟩⟩
  | arr xs => exact ⟨.array, rfl, rfl, rfl, rfl, rfl, rfl, ⟨_, rfl, by decide⟩, ⟨_, _, rfl, rfl, rfl, rfl⟩, ⟨_, _, rfl, rfl, rfl, rfl⟩, ⟨_, rfl, (nomatch ·)⟩⟩
  | obj n kvs low => exact ⟨.object, rfl, rfl, rfl, rfl, rfl, rfl, ⟨_, rfl, by decide⟩, ⟨_, _, rfl, rfl, rfl, rfl⟩, ⟨_, _, rfl, rfl, rfl, rfl⟩, ⟨_, rfl, (nomatch ·)⟩⟩
  | num s n =>
    refine ⟨.number, rfl, rfl, rfl, rfl, rfl, rfl, ⟨_, rfl, by decide⟩, ⟨_, _, rfl, rfl, ?_, ?_⟩, ⟨_, _, rfl, rfl, ?_, ?_⟩, ⟨_, rfl, fun hg => ⟨rfl, ?_⟩⟩⟩
    · show (n.floated || !n.floated) = true
      simp
    · show (n.floated && !n.floated) = false
      simp
    · show (n.negative || !n.negative) = true
      simp
    · show (n.negative && !n.negative) = false
      simp
    · show R.ok n.negative = .ok false
      cases hn : n.negative with
      | false => rfl
      | true => simp [hn] at hg

theorem answers_of {v : V} {k : Kind} (h : v ≠ .nilp) (ho : isObject v = .ok (decide (k = .object))) (ha : isArray v = .ok (decide (k = .array)))
    (hs : isString v = .ok (decide (k = .string))) (hn : isNumber v = .ok (decide (k = .number))) (hb : isBoolean v = .ok (decide (k = .boolean)))
    (hu : isNull v = .ok (decide (k = .null))) : Answers v k := by
  obtain ⟨k', a, -⟩ := C89_one v h
  have h1 := a.object.symm.trans ho
  have h2 := a.array.symm.trans ha
  have h3 := a.string.symm.trans hs
  have h4 := a.number.symm.trans hn
  have h5 := a.boolean.symm.trans hb
  have h6 := a.null.symm.trans hu
  have : k' = k := by cases k <;> cases k' <;> first | rfl | simp at h1 h2 h3 h4 h5 h6
  exact this ▸ a

/-- What Unmarshal returns is of the kind that the first character after white space tells; what it returns with an error is of no kind,
for the empty text nil. -/
theorem C89_text (E : Env) (s b : Bytes) (v : V) (e : Option Err) (h : goUnmarshal E s = .ok (b, v, e)) :
    (e = none → ∃ w c t k, s = w ++ c :: t ∧ Blank w ∧ ¬ Blank [c] ∧ Starts c k ∧ Answers v k) ∧
    (e ≠ none → s ≠ [] → Answers v .nothing) ∧ (s = [] → v = .nilp) := by
  refine ⟨?_, ?_⟩
  · rintro rfl
    obtain ⟨j, ⟨b1, t, b2, rfl, hb1, ht, -⟩, rfl⟩ := (unmarshal_iff E s v).1 (goUnmarshal_ok.1 h).2
    obtain ⟨c, u, rfl, hc⟩ := lval_head (numTok_shape E) ht
    have hn : ¬ Blank [c] := fun hb => (head_notSep hc).1 (by have := hb c (by simp); unfold SepCh; grind)
    cases j with
    | null => obtain rfl : c = 0x6E := hc; exact ⟨b1, _, u ++ b2, .null, by simp, hb1, hn, .null, answers_of (by simp [toV]) rfl rfl rfl rfl rfl rfl⟩
    | bool x =>
      cases x with
      | true => obtain rfl : c = 0x74 := hc; exact ⟨b1, _, u ++ b2, .boolean, by simp, hb1, hn, .true, answers_of (by simp [toV]) rfl rfl rfl rfl rfl rfl⟩
      | false => obtain rfl : c = 0x66 := hc; exact ⟨b1, _, u ++ b2, .boolean, by simp, hb1, hn, .false, answers_of (by simp [toV]) rfl rfl rfl rfl rfl rfl⟩
    | num x =>
      rcases hc with hc | rfl
      · exact ⟨b1, c, u ++ b2, .number, by simp, hb1, hn, .digit c hc, answers_of (by simp [toV]) rfl rfl rfl rfl rfl rfl⟩
      · exact ⟨b1, _, u ++ b2, .number, by simp, hb1, hn, .minus, answers_of (by simp [toV]) rfl rfl rfl rfl rfl rfl⟩
    | str x => obtain rfl : c = 0x22 := hc; exact ⟨b1, _, u ++ b2, .string, by simp, hb1, hn, .string, answers_of (by simp [toV]) rfl rfl rfl rfl rfl rfl⟩
    | arr xs => obtain rfl : c = 0x5B := hc; exact ⟨b1, _, u ++ b2, .array, by simp, hb1, hn, .array, answers_of (by simp [toV]) (by simp [toV, isObject, onV]) (by simp [toV, isArray, onV]) (by simp [toV, isString, onV]) (by simp [toV, isNumber, onV]) (by simp [toV, isBoolean, onV]) (by simp [toV, isNull, onV])⟩
    | obj ms => obtain rfl : c = 0x7B := hc; exact ⟨b1, _, u ++ b2, .object, by simp, hb1, hn, .object, answers_of (by simp [toV]) (by simp [toV, isObject, onV]) (by simp [toV, isArray, onV]) (by simp [toV, isString, onV]) (by simp [toV, isNumber, onV]) (by simp [toV, isBoolean, onV]) (by simp [toV, isNull, onV])⟩
  · rcases goUnmarshal_cases E s with ⟨w, h1, h2⟩ | ⟨e', h1, h2⟩
    · rw [h] at h2
      cases h2
      refine ⟨fun hc => absurd rfl hc, ?_⟩
      rintro rfl
      simp [unmarshal] at h1
    · rw [h] at h2
      cases h2
      refine ⟨fun _ hs => ?_, ?_⟩
      · rw [if_neg hs]
        exact answers_of (by simp) rfl rfl rfl rfl rfl rfl
      · rintro rfl; rfl

/-- The first character cannot stand for two kinds. -/
theorem C89_first (c : UInt8) (k k' : Kind) (h : Starts c k) (h' : Starts c k') : k = k' := by
  cases h with
  | digit _ hd => cases h' with
    | digit => rfl
    | minus => rfl
    | _ => exact absurd hd (by unfold Digit; decide)
  | _ => cases h' with
    | digit _ hd => first | rfl | exact absurd hd (by unfold Digit; decide)
    | _ => rfl

/-- on a nil pointer each of them panics -/
theorem C89_nil : isObject .nilp = .panic ∧ isArray .nilp = .panic ∧ isString .nilp = .panic ∧ isNumber .nilp = .panic ∧ isBoolean .nilp = .panic ∧
    isNull .nilp = .panic ∧ valueType .nilp = .panic ∧ isFloat .nilp = .panic ∧ isInteger .nilp = .panic ∧ isNegative .nilp = .panic ∧ isPositive .nilp = .panic ∧
    greaterThanInt64Max .nilp = .panic := ⟨rfl, rfl, rfl, rfl, rfl, rfl, rfl, rfl, rfl, rfl, rfl, rfl⟩

/-- Values that are Equal are of the same kind. -/
theorem C89_equal (D : DecFn) (v w : V) (k : Kind) (h : equal D v w = true) (hk : Answers v k) : Answers w k := by
  cases v <;> cases w <;> first
    | (exfalso; revert h; simp [equal]; done)
    | (exact answers_of (by simp) hk.object hk.array hk.string hk.number hk.boolean hk.null)

/-- What Marshal writes begins with the character of the kind, whatever the options are; for a number that is so if its text begins with a digit or a sign
(a number without text is +Inf, -Inf or NaN). -/
theorem C89_marshal (E : Env) (S : SortFn) (d : Opt) (v : V) (opts : List MOpt) (b : Bytes) (k : Kind) (hv : Marshalable v)
    (hn : ∀ src n, v = .num src n → ∃ c t, src = c :: t ∧ (Digit c ∨ c = 0x2D))
    (h : marshal E S d v opts = .ok (b, none)) (hk : Answers v k) : ∃ c t, b = c :: t ∧ Starts c k := by
  obtain ⟨-, rfl⟩ := marshal_ok hv h
  obtain ⟨k', -, hu⟩ := C89_one v (fun e => hv.2.1 [] (by rw [e]; rfl))
  obtain rfl := hu k hk
  have key : ∀ k', Answers v k' → k' = k := hu
  have fin : ∀ c t k', textOf E S d v opts = c :: t → Starts c k' → Answers v k' → ∃ c t, textOf E S d v opts = c :: t ∧ Starts c k :=
    fun c t k' h1 h2 h3 => ⟨c, t, h1, key k' h3 ▸ h2⟩
  cases v with
  | nilp => exact absurd rfl (hv.2.1 [])
  | notExist => exact absurd rfl hv.2.2
  | str s => exact fin _ _ .string (by simp only [textOf, doc, Doc.print]; rfl) .string (answers_of (by simp) rfl rfl rfl rfl rfl rfl)
  | num src n =>
    obtain ⟨c, t, rfl, hc⟩ := hn src n rfl
    refine fin c t .number (by simp [textOf, doc, Doc.print, numText, special]) ?_ (answers_of (by simp) rfl rfl rfl rfl rfl rfl)
    rcases hc with hc | rfl
    · exact .digit c hc
    · exact .minus
  | bool x =>
    cases x with
    | true => exact fin _ _ .boolean (by simp only [textOf, doc, Doc.print, formatBool]; rfl) .true (answers_of (by simp) rfl rfl rfl rfl rfl rfl)
    | false => exact fin _ _ .boolean (by simp only [textOf, doc, Doc.print, formatBool]; rfl) .false (answers_of (by simp) rfl rfl rfl rfl rfl rfl)
  | null => exact fin _ _ .null (by simp only [textOf, doc, Doc.print, nullText]; rfl) .null (answers_of (by simp) rfl rfl rfl rfl rfl rfl)
  | arr xs =>
    by_cases h0 : xs.length = 0
    · exact fin _ _ .array (by simp only [textOf, doc, Doc.print, h0, if_true, if_false]; rfl) .array (answers_of (by simp) rfl rfl rfl rfl rfl rfl)
    · exact fin _ _ .array (by simp only [textOf, doc, Doc.print, h0, if_true, if_false]; rfl) .array (answers_of (by simp) rfl rfl rfl rfl rfl rfl)
  | obj n kvs low =>
    by_cases h0 : kvs.length = 0
    · exact fin _ _ .object (by simp only [textOf, doc, Doc.print, h0, if_true, if_false]; rfl) .object (answers_of (by simp) rfl rfl rfl rfl rfl rfl)
    · exact fin _ _ .object (by simp only [textOf, doc, Doc.print, h0, if_true, if_false]; rfl) .object (answers_of (by simp) rfl rfl rfl rfl rfl rfl)

/-- Whatever Marshal makes of a text that Unmarshal took is of the same kind as the text. -/
theorem C89_rewritten (E : Env) (S : SortFn) (d : Opt) (s : Bytes) (v : V) (opts : List MOpt) (b : Bytes) (hu : goUnmarshal E s = .ok (s, v, none))
    (h : marshal E S d v opts = .ok (b, none)) :
    ∃ w c t c' t' k, s = w ++ c :: t ∧ Blank w ∧ ¬ Blank [c] ∧ b = c' :: t' ∧ Starts c k ∧ Starts c' k ∧ Answers v k := by
  obtain ⟨w, c, t, k, h1, h2, h3, h4, h5⟩ := (C89_text E s s v none hu).1 rfl
  have hun := (goUnmarshal_ok.1 hu).2
  obtain ⟨c', t', h6, h7⟩ := C89_marshal E S d v opts b k (parsed_marshalable hun) (fun src n hn => by
    obtain ⟨j, ⟨b1, t, b2, -, -, ht, -⟩, hj⟩ := (unmarshal_iff E s v).1 hun
    rw [hn] at hj
    cases ht with
    | num u hu' =>
      simp only [toV, V.num.injEq] at hj
      rw [hj.1]
      exact (numTok_shape E _ hu').1
    | _ => simp [toV] at hj) h h5
  exact ⟨w, c, t, c', t', k, h1, h2, h3, h6, h4, h7, h5⟩

/-- a text whose value is an array -/
example : ∃ v, goUnmarshal sampleEnv (asc " [null]") = .ok (asc " [null]", v, none) ∧ Answers v .array :=
  ⟨.arr [.null], by decide +kernel, answers_of (by simp) rfl rfl rfl rfl rfl rfl⟩
/-- what is returned for a faulty text -/
example : ∃ v e, goUnmarshal sampleEnv (asc "nul") = .ok (asc "nul", v, some e) ∧ Answers v .nothing :=
  ⟨.notExist, .notValidNullValue, by decide +kernel, answers_of (by simp) rfl rfl rfl rfl rfl rfl⟩
/-- a number between int64 and uint64 -/
example : greaterThanInt64Max (newUint64 sampleEnv (BitVec.ofNat 64 (2 ^ 63))) = .ok true := by decide +kernel

end JV
