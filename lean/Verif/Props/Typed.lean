import Verif.Spec.Typed
import Verif.Proofs.Typed
import Verif.Props.History
/-!
C30, C44: typed getters and the classification of numbers.
-/
namespace JV
open Spec

/-! ### C30 -/

/-- C30 as stated, for GetInt. False: see `C30_counterexample`. -/
def C30_statement : Prop := ∀ (E : Env) (cl : Bool) (v : V) (ps : List Param), NoNil v → ps ≠ [] → ∃ x e, getInt64 E cl v ps = .ok (x, e)

/-- On a value without nil pointers and without blank strings no number getter panics, for any path, caseless or not. -/
theorem C30_number_getters_total_partial (E : Env) (cl : Bool) (v : V) (ps : List Param) (hn : NoNil v) (hne : ps ≠ []) (hb : NoBlankStr E v) :
    (∃ x e, getInt64 E cl v ps = .ok (x, e)) ∧ (∃ x e, getUint64 E cl v ps = .ok (x, e)) ∧ (∃ x e, getInt32 E cl v ps = .ok (x, e)) ∧
    (∃ x e, getUint32 E cl v ps = .ok (x, e)) ∧ (∃ x e, getFloat64 E cl v ps = .ok (x, e)) ∧ (∃ x e, getFloat32 E cl v ps = .ok (x, e)) := by
  have key : ∀ {α : Type} (zero : α) (f : V → R α) (pr : Num → α), (∀ src n, f (.num src n) = .ok (pr n)) →
      ∃ x e, typedGet E cl zero (convNum E f) v ps = .ok (x, e) := fun zero f pr hf =>
    typedGet_total E cl zero _ v ps hn hne hb (fun c h1 h2 => convNum_total E f pr hf c h1 h2)
  exact ⟨key _ _ Num.i64 (fun _ _ => rfl), key _ _ Num.u64 (fun _ _ => rfl), key _ _ (fun n => n.i64.truncate 32) (fun _ _ => rfl),
    key _ _ (fun n => n.u64.truncate 32) (fun _ _ => rfl), key _ _ Num.f64 (fun _ _ => rfl), key _ _ (fun n => E.f64ToF32 n.f64) (fun _ _ => rfl)⟩

/-- The other typed getters never panic, blank strings or not. -/
theorem C30_other_getters_total (E : Env) (cl : Bool) (v : V) (ps : List Param) (hn : NoNil v) (hne : ps ≠ []) :
    (∃ x e, getBool E cl v ps = .ok (x, e)) ∧ (∃ x e, getString E cl v ps = .ok (x, e)) ∧ (∃ x e, getNull E cl v ps = .ok (x, e)) ∧
    (∃ x e, getObject E cl v ps = .ok (x, e)) ∧ (∃ x e, getArray E cl v ps = .ok (x, e)) := by
  have key : ∀ {α : Type} (zero : α) (conv : V → Ret α), (∀ c, c ≠ .nilp → ∃ x e, conv c = .ok (x, e)) →
      ∃ x e, typedGet E cl zero conv v ps = .ok (x, e) := by
    intro α zero conv hc
    unfold typedGet
    rcases getC_cases E cl v ps hne hn with ⟨l, c, d, h1, -, -, h4⟩ | ⟨e, h⟩
    · rw [h1]; exact hc c h4
    · rw [h]; exact ⟨_, _, rfl⟩
  refine ⟨key _ _ ?_, key _ _ ?_, key _ _ ?_, key _ _ ?_, key _ _ ?_⟩ <;>
    (intro c hc; cases c <;> first | exact absurd rfl hc | exact ⟨_, _, rfl⟩)

/-- What the number getters return: the number with nil error for a number; for a string whose trimmed text is a number token, the number
Unmarshal reads from that text, with ErrTypeNotMatch; zero with an error otherwise. -/
theorem C30_number_results (E : Env) (hpf : FloatSyntax E) (cl : Bool) (v : V) (ps : List Param) :
    (∀ r, getInt64 E cl v ps = .ok r → NumResult E Num.i64 0 (getC E cl v ps).2 r) ∧
    (∀ r, getUint64 E cl v ps = .ok r → NumResult E Num.u64 0 (getC E cl v ps).2 r) ∧
    (∀ r, getInt32 E cl v ps = .ok r → NumResult E (fun n => n.i64.truncate 32) 0 (getC E cl v ps).2 r) ∧
    (∀ r, getUint32 E cl v ps = .ok r → NumResult E (fun n => n.u64.truncate 32) 0 (getC E cl v ps).2 r) ∧
    (∀ r, getFloat64 E cl v ps = .ok r → NumResult E Num.f64 0 (getC E cl v ps).2 r) ∧
    (∀ r, getFloat32 E cl v ps = .ok r → NumResult E (fun n => E.f64ToF32 n.f64) 0 (getC E cl v ps).2 r) := by
  have key : ∀ {α : Type} (zero : α) (f : V → R α) (pr : Num → α), (∀ src n, f (.num src n) = .ok (pr n)) →
      ∀ r, typedGet E cl zero (convNum E f) v ps = .ok r → NumResult E pr zero (getC E cl v ps).2 r := by
    intro α zero f pr hf r h
    unfold typedGet at h
    cases hg : (getC E cl v ps).2 with
    | ok c =>
      rw [hg] at h
      simp only at h
      exact convNum_result hpf f pr zero hf c r h
    | err e => rw [hg] at h; cases h; exact .fail e
    | panic => rw [hg] at h; cases h
    | diverge => rw [hg] at h; cases h
  exact ⟨key _ _ Num.i64 (fun _ _ => rfl), key _ _ Num.u64 (fun _ _ => rfl), key _ _ (fun n => n.i64.truncate 32) (fun _ _ => rfl),
    key _ _ (fun n => n.u64.truncate 32) (fun _ _ => rfl), key _ _ Num.f64 (fun _ _ => rfl), key _ _ (fun n => E.f64ToF32 n.f64) (fun _ _ => rfl)⟩

/-- What Bool, String, Null, Object and Array getters return for what Get found (`c`). -/
theorem C30_other_results (E : Env) (cl : Bool) (v c : V) (ps : List Param) (h : (getC E cl v ps).2 = .ok c) (hc : c ≠ .nilp) :
    getBool E cl v ps = .ok (boolResult c) ∧ getString E cl v ps = .ok (strResult c) ∧ getNull E cl v ps = .ok (nullResult c) ∧
    getObject E cl v ps = .ok (objResult c) ∧ getArray E cl v ps = .ok (arrResult c) := by
  unfold getBool getString getNull getObject getArray typedGet
  rw [h]
  cases c with
  | nilp => exact absurd rfl hc
  | num src n =>
    refine ⟨?_, rfl, rfl, rfl, rfl⟩
    simp only [boolAndErr, boolResult, fltNonzero, R.ok.injEq, Prod.mk.injEq, and_true, not_or, Bool.decide_and, bne]
    rw [Bool.eq_iff_iff]; simp
  | _ => exact ⟨rfl, rfl, rfl, rfl, rfl⟩

/-- and when Get fails they return its error with the zero value -/
theorem C30_get_fails (E : Env) (cl : Bool) (v : V) (ps : List Param) (e : Err) (h : (getC E cl v ps).2 = .err e) :
    getInt64 E cl v ps = .ok (0, some e) ∧ getFloat64 E cl v ps = .ok (0, some e) ∧ getBool E cl v ps = .ok (false, some e) ∧ getString E cl v ps = .ok ([], some e) ∧
    getNull E cl v ps = .ok ((), some e) ∧ getObject E cl v ps = .ok (.notExist, some e) ∧ getArray E cl v ps = .ok (.notExist, some e) := by
  unfold getInt64 getFloat64 getBool getString getNull getObject getArray typedGet
  rw [h]; exact ⟨rfl, rfl, rfl, rfl, rfl, rfl, rfl⟩

/-- `Int()`, `Uint()`, `Float64()` … on any value that is not a nil pointer and not a non-empty blank string. -/
theorem C30_accessors (E : Env) (hpf : FloatSyntax E) (v : V) (hv : v ≠ .nilp)
    (hb : ∀ s, v = .str s → s ≠ [] → E.trimSpace s ≠ []) :
    ∃ n, NumValue E v n ∧ int64 E v = .ok n.i64 ∧ uint64 E v = .ok n.u64 ∧ int32 E v = .ok (n.i64.truncate 32) ∧
      uint32 E v = .ok (n.u64.truncate 32) ∧ float64 E v = .ok n.f64 ∧ float32 E v = .ok (E.f64ToF32 n.f64) := by
  obtain ⟨n, h1, h2⟩ := numRec_value hpf v hv hb
  refine ⟨n, h1, ?_, ?_, ?_, ?_, ?_, ?_⟩ <;> simp [int64, uint64, int32, uint32, float64, float32, h2]

/-- `Bool()` is what GetBool gives, without the error; it never panics. -/
theorem C30_bool (v : V) (hv : v ≠ .nilp) : bool v = .ok (boolResult v).1 := by
  cases v with
  | nilp => exact absurd rfl hv
  | num src n =>
    simp only [bool, boolAndErr, R.bind_ok, R.pure_eq, boolResult, fltNonzero, R.ok.injEq, not_or, Bool.decide_and, bne]
    rw [Bool.eq_iff_iff]; simp
  | _ => rfl

/-- `GetInt` on an empty string panics (index out of range in the number parser): with `E` any library whose TrimSpace leaves the empty
string empty. -/
theorem C30_getInt_empty_panics (E : Env) (h : E.trimSpace [] = []) (k : Bytes) (n i : BitVec 32) :
    getInt64 E false (.obj n [⟨k, i, .str []⟩] none) [.str k] = .panic := by
  have hg : (getC E false (.obj n [⟨k, i, .str []⟩] none) [.str k]).2 = .ok (.str []) := by
    have := get_key E n [⟨k, i, .str []⟩] none k
    simp [lookup, Ent.key, Ent.v] at this
    exact this
  unfold getInt64 typedGet
  rw [hg]
  simp [convNum, numberAndErr, h, parseNumberV_empty]

/-- so does `NewString(" ").Int()` -/
theorem C30_int_blank_panics (E : Env) (h : E.trimSpace [0x20] = []) : int64 E (.str [0x20]) = .panic := by
  simp [int64, numRec, numberFromNotNumber, h, parseNumberV_empty]

theorem C30_counterexample : ¬ C30_statement := by
  intro h
  obtain ⟨x, e, hx⟩ := h sampleEnv false (.obj 1 [⟨asc "a", 1, .str []⟩] none) [.str (asc "a")] (by
    intro l
    match l with
    | [] => simp [V.at]
    | s :: l =>
      simp only [V.at]
      match s with
      | .idx i => simp [V.child]
      | .key k =>
        by_cases hk : asc "a" = k
        · simp only [child_key, lookup, Ent.key, hk, if_true, Option.map_some, Ent.v]
          match l with
          | [] => simp [V.at]
          | t :: l => simp [V.at, V.child]
        · simp [child_key, lookup, Ent.key, hk]) (by simp)
  rw [C30_getInt_empty_panics sampleEnv (by decide +kernel)] at hx
  cases hx

/-- Exactly when a number getter panics: if Get finds a string that is empty but for blanks. (The path is not empty and there are no nil pointers in the value.) -/
theorem C30_panics_iff (E : Env) (cl : Bool) (v : V) (ps : List Param) (hn : NoNil v) (hne : ps ≠ []) :
    (getInt64 E cl v ps = .panic ↔ ∃ s, (getC E cl v ps).2 = .ok (.str s) ∧ E.trimSpace s = []) ∧
    (getUint64 E cl v ps = .panic ↔ ∃ s, (getC E cl v ps).2 = .ok (.str s) ∧ E.trimSpace s = []) ∧
    (getInt32 E cl v ps = .panic ↔ ∃ s, (getC E cl v ps).2 = .ok (.str s) ∧ E.trimSpace s = []) ∧
    (getUint32 E cl v ps = .panic ↔ ∃ s, (getC E cl v ps).2 = .ok (.str s) ∧ E.trimSpace s = []) ∧
    (getFloat64 E cl v ps = .panic ↔ ∃ s, (getC E cl v ps).2 = .ok (.str s) ∧ E.trimSpace s = []) ∧
    (getFloat32 E cl v ps = .panic ↔ ∃ s, (getC E cl v ps).2 = .ok (.str s) ∧ E.trimSpace s = []) := by
  have key : ∀ {α : Type} (zero : α) (f : V → R α) (pr : Num → α), (∀ src n, f (.num src n) = .ok (pr n)) →
      (typedGet E cl zero (convNum E f) v ps = .panic ↔ ∃ s, (getC E cl v ps).2 = .ok (.str s) ∧ E.trimSpace s = []) := by
    intro α zero f pr hf
    unfold typedGet
    rcases getC_cases E cl v ps hne hn with ⟨l, c, d, h1, -, -, h4⟩ | ⟨e, h⟩
    · rw [h1]
      constructor
      · intro h
        refine Classical.byContradiction fun hx => ?_
        obtain ⟨x, e, he⟩ := convNum_total E f pr hf c h4 (fun s hs ht => hx ⟨s, by rw [hs], ht⟩)
        simp only [he] at h
        cases h
      · rintro ⟨s, hs, ht⟩
        cases hs
        simp [convNum, numberAndErr, ht, parseNumberV_empty]
    · rw [h]
      exact ⟨(nomatch ·), fun ⟨s, hs, _⟩ => nomatch hs⟩
  exact ⟨key _ _ Num.i64 (fun _ _ => rfl), key _ _ Num.u64 (fun _ _ => rfl), key _ _ (fun n => n.i64.truncate 32) (fun _ _ => rfl),
    key _ _ (fun n => n.u64.truncate 32) (fun _ _ => rfl), key _ _ Num.f64 (fun _ _ => rfl), key _ _ (fun n => E.f64ToF32 n.f64) (fun _ _ => rfl)⟩

/-- Exactly when Int(), Uint() … panic: on a nil pointer and on a string of blanks; not on the empty string, unlike GetInt. -/
theorem C30_accessor_panics_iff (E : Env) (hpf : FloatSyntax E) (v : V) :
    (int64 E v = .panic ↔ v = .nilp ∨ ∃ s, v = .str s ∧ s ≠ [] ∧ E.trimSpace s = []) ∧
    (uint64 E v = .panic ↔ v = .nilp ∨ ∃ s, v = .str s ∧ s ≠ [] ∧ E.trimSpace s = []) ∧
    (int32 E v = .panic ↔ v = .nilp ∨ ∃ s, v = .str s ∧ s ≠ [] ∧ E.trimSpace s = []) ∧
    (uint32 E v = .panic ↔ v = .nilp ∨ ∃ s, v = .str s ∧ s ≠ [] ∧ E.trimSpace s = []) ∧
    (float64 E v = .panic ↔ v = .nilp ∨ ∃ s, v = .str s ∧ s ≠ [] ∧ E.trimSpace s = []) ∧
    (float32 E v = .panic ↔ v = .nilp ∨ ∃ s, v = .str s ∧ s ≠ [] ∧ E.trimSpace s = []) := by
  by_cases hx : v = .nilp ∨ ∃ s, v = .str s ∧ s ≠ [] ∧ E.trimSpace s = []
  · have hp : numRec E v = .panic := by
      rcases hx with rfl | ⟨s, rfl, h1, h2⟩
      · rfl
      · simp [numRec, numberFromNotNumber, h1, h2, parseNumberV_empty]
    simp [int64, uint64, int32, uint32, float64, float32, hp, hx]
  · obtain ⟨n, -, h1, h2, h3, h4, h5, h6⟩ := C30_accessors E hpf v (fun h => hx (.inl h)) (fun s hs hn ht => hx (.inr ⟨s, hs, hn, ht⟩))
    simp [h1, h2, h3, h4, h5, h6, hx]

example : int64 sampleEnv (.str []) = .ok 0 ∧ int64 sampleEnv (.str [0x20]) = .panic := by decide +kernel

-- a numeric string, with blanks around it
example : getInt64 sampleEnv false (.obj 1 [⟨asc "a", 1, .str (asc " -12 ")⟩] none) [.str (asc "a")] = .ok (BitVec.ofInt 64 (-12), some .typeNotMatch) := by
  decide +kernel
example : getInt64 sampleEnv false (.obj 1 [⟨asc "a", 1, .str (asc "12x")⟩] none) [.str (asc "a")] = .ok (0, some .parseNumberFromString) := by
  decide +kernel

/-! ### C44 -/

/-- C44 as stated for constructed numbers: IsFloat tells whether the text has a fraction or an exponent. False: see `C44_counterexample`. -/
def C44_statement : Prop := ∀ (E : Env) (src : Bytes) (n : Num), Built E Any (.num src n) → (isFloat (.num src n) = .ok true ↔ ∃ neg ip, JFloat neg ip src)

/-- Parsed JSON numbers: IsFloat exactly for those with a fraction or exponent, IsInteger for the others. -/
theorem C44_parsed_partial (E : Env) (hpf : FloatSyntax E) (t : Bytes) (n : Num) (ht : JNum t) (h : unmarshal E t = .ok (.num t n)) :
    (isFloat (.num t n) = .ok true ↔ ∃ neg ip, JFloat neg ip t) ∧ (isInteger (.num t n) = .ok true ↔ ∃ neg ip, JInt neg ip t) := by
  have key := jnum_parsed hpf h
  have hx := jint_not_jfloat t
  rcases ht with ⟨neg, ip, hj⟩ | ⟨neg, ip, hj⟩
  · have hf := key.1 ⟨neg, ip, hj⟩
    simp only [isFloat, isInteger, onV, hf]
    refine ⟨⟨by simp, fun h => absurd h (hx ⟨neg, ip, hj⟩)⟩, ⟨fun _ => ⟨neg, ip, hj⟩, by simp⟩⟩
  · have hf := key.2 ⟨neg, ip, hj⟩
    simp only [isFloat, isInteger, onV, hf]
    refine ⟨⟨fun _ => ⟨neg, ip, hj⟩, by simp⟩, ⟨by simp, fun h => absurd ⟨neg, ip, hj⟩ (hx h)⟩⟩

/-- Parsed JSON integers in range: the sign and the comparison with the largest int64 are those of the number (IsNegative also holds for
`-0`). -/
theorem C44_parsed_sign_partial (E : Env) (t : Bytes) (n : Num) (neg : Bool) (ip : Bytes) (hj : JInt neg ip t)
    (h : unmarshal E t = .ok (.num t n)) (hr : -2 ^ 63 ≤ intVal neg ip ∧ intVal neg ip < 2 ^ 64) :
    (isNegative (.num t n) = .ok true ↔ intVal neg ip < 0 ∨ (neg = true ∧ intVal neg ip = 0)) ∧
    (greaterThanInt64Max (.num t n) = .ok true ↔ intVal neg ip > 2 ^ 63 - 1) := by
  obtain ⟨h1, h2, h3⟩ := jint_parsed hj h hr
  have hneg : neg = true → intVal neg ip ≤ 0 := by rintro rfl; simp [intVal]
  have hpos : neg = false → 0 ≤ intVal neg ip := by rintro rfl; simp [intVal]
  constructor
  · simp only [isNegative, onV, h1, R.ok.injEq]
    cases neg with
    | true => have := hneg rfl; simp; omega
    | false => have := hpos rfl; simp; omega
  · simp only [greaterThanInt64Max, onV, h1, R.ok.injEq]
    cases neg with
    | true => have := hneg rfl; simp; omega
    | false =>
      have := hpos rfl
      have hu := h3 this hr.2
      simp only [Bool.false_eq_true, if_false, decide_eq_true_eq, gt_iff_lt, BitVec.lt_def]
      rw [show (0x7fffffffffffffff#64).toNat = 2 ^ 63 - 1 from rfl]
      omega

/-- Constructed integers: `NewInt64(i)` and `NewUint64(u)` for every argument. -/
theorem C44_newInt (E : Env) (i : BitVec 64) :
    isFloat (newInt64 E i) = .ok false ∧ isInteger (newInt64 E i) = .ok true ∧ isNegative (newInt64 E i) = .ok (decide (i.toInt < 0)) ∧
    greaterThanInt64Max (newInt64 E i) = .ok false := by
  refine ⟨rfl, rfl, rfl, ?_⟩
  simp only [greaterThanInt64Max, onV, newInt64, R.ok.injEq]
  by_cases h : i.toInt < 0
  · simp [h]
  · simp only [h, decide_false, Bool.false_eq_true, if_false, decide_eq_false_iff_not, gt_iff_lt, BitVec.lt_def]
    rw [show (0x7fffffffffffffff#64).toNat = 2 ^ 63 - 1 from rfl]
    rw [BitVec.toInt_eq_toNat_cond] at h
    split at h <;> omega

theorem C44_newUint (E : Env) (u : BitVec 64) :
    isFloat (newUint64 E u) = .ok false ∧ isInteger (newUint64 E u) = .ok true ∧ isNegative (newUint64 E u) = .ok false ∧
    greaterThanInt64Max (newUint64 E u) = .ok (decide (u.toNat > 2 ^ 63 - 1)) := by
  refine ⟨rfl, rfl, rfl, ?_⟩
  simp only [greaterThanInt64Max, onV, newUint64, Bool.false_eq_true, if_false, R.ok.injEq, gt_iff_lt, BitVec.lt_def]
  rfl

/-- `NewFloat64` never gives a number that IsFloat recognises, whatever the argument: `IsFloat(1.5)` is false for a constructed value and
true after a marshal/unmarshal round trip. -/
theorem C44_newFloat (E : Env) (fmt : Bytes) (f : BitVec 64) : isFloat (newFloat64f E fmt f) = .ok false ∧ isInteger (newFloat64f E fmt f) = .ok true := ⟨rfl, rfl⟩

theorem C44_counterexample : ¬ C44_statement := by
  intro h
  have := (h sampleEnv (asc "1.5") { negative := false, floated := false, f64 := 0x3FF8000000000000#64, i64 := 1, u64 := 1 }
    (.scalar _ trivial trivial)).2 ⟨false, [0x31], [0x2E, 0x35], [], .inr ⟨0x31, [], rfl, by decide, by decide, by simp [Digits]⟩,
      .inr ⟨[0x35], rfl, by simp, by unfold Digits Digit; decide⟩, .inl rfl, by simp, rfl⟩
  cases this

-- that record is what NewFloat64(1.5) makes
example : newFloat64f sampleEnv (asc "1.5") 0x3FF8000000000000#64 =
    .num (asc "1.5") { negative := false, floated := false, f64 := 0x3FF8000000000000#64, i64 := 1, u64 := 1 } := by decide +kernel
example : unmarshal sampleEnv (asc "-12") = .ok (.num (asc "-12") (intNum sampleEnv true 12)) := by decide +kernel

end JV
