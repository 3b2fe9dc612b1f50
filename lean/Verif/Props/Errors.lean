import Verif.Proofs.Errors
import Verif.Props.Parsing
/-!
C73: the errors of Unmarshal. `TextErr` (Spec/Errors) says which error belongs to which text.
-/
namespace JV
open Spec

theorem goUnmarshal_err {E : Env} {s : Bytes} {e : Err} : (∃ v, goUnmarshal E s = .ok (s, v, some e)) ↔ unmarshal E s = .err e := by
  rcases goUnmarshal_cases E s with ⟨v, h1, h2⟩ | ⟨e', h1, h2⟩
  · rw [h1, h2]
    constructor
    · rintro ⟨w, hw⟩; cases hw
    · intro h; cases h
  · rw [h1, h2]
    constructor
    · rintro ⟨w, hw⟩; cases hw; rfl
    · intro h; cases h; exact ⟨_, rfl⟩

/-- C73 as documented at the error constants. False: see `C73_counterexample`. -/
def C73_statement : Prop := ∀ (E : Env) (s : Bytes) (v : V) (e : Err), FloatSyntax E → goUnmarshal E s = .ok (s, v, some e) →
  (∀ t, s = 0x74 :: t ∨ s = 0x66 :: t → (∀ r, s ≠ litTrue ++ r ∧ s ≠ litFalse ++ r) → e = .notValidBoolValue) ∧
  (∀ t, s = 0x6E :: t → (∀ r, s ≠ litNull ++ r) → e = .notValidNullValue) ∧
  (∀ c t, s = c :: t → NumStart c → (∀ x ∈ t, NumChar x) → e = .notValidNumberValue)

/-- Unmarshal reports the error that belongs to the text, for every text. -/
theorem C73_exact (E : Env) (hE : FloatSyntax E) (s : Bytes) (e : Err) :
    (∃ v, goUnmarshal E s = .ok (s, v, some e)) ↔ TextErr (AccNum E) s e := by
  have he : NumTok E = AccNum E := funext fun t => propext (numTok_iff hE t)
  rw [goUnmarshal_err, unmarshal_err_iff, he]

/-! ### parts of a text -/

theorem follow_more {j : J} {a b : Bytes} (h : Follow j a) (ha : a ≠ []) : Follow j (a ++ b) := (Follow_app ha).2 h

theorem head_more {u q : Bytes} {P : UInt8 → Prop} (hu : u ≠ []) (h : ∀ c t, u = c :: t → P c) : ∀ c t, u ++ q = c :: t → P c := fun c t hh => by
  match u with
  | [] => exact absurd rfl hu
  | x :: u =>
    simp only [List.cons_append, List.cons.injEq] at hh
    exact h c u (by rw [hh.1])

/-- an unrecognized character stays one -/
theorem raw_more {n : Bytes → Prop} {u : Bytes} {e : Err} (h : VErr n u e) : ∀ (q : Bytes), e = .rawBytesUnrecognized → u ≠ [] ∧ VErr n (u ++ q) e := by
  have bs : ∀ {t e}, BadStr t e → e ≠ .rawBytesUnrecognized := fun hb he => by
    obtain ⟨p, d, u, -, -, -, -, ⟨-, rfl⟩ | ⟨-, rfl⟩⟩ := hb <;> cases he
  refine @VErr.rec n (fun u e _ => ∀ q, e = .rawBytesUnrecognized → u ≠ [] ∧ VErr n (u ++ q) e) (fun u e _ => ∀ q, e = .rawBytesUnrecognized → u ≠ [] ∧ AErr n (u ++ q) e)
    (fun u e _ => ∀ q, e = .rawBytesUnrecognized → u ≠ [] ∧ OErr n (u ++ q) e)
    ?char ?tru ?fls ?nshort ?null ?num ?str ?arr ?obj ?aeof ?aelem ?anext ?oeof ?noKey ?keyChar ?key ?noColon ?colonChar ?noValue ?value ?onext u e h
  case char => intro c t hc q _; exact ⟨by simp, .char _ _ hc⟩
  case tru | fls | nshort => intro t _ q he; cases he
  case null => intro t _ _ q he; cases he
  case num => intro c t r _ _ _ _ q he; cases he
  case str => intro t e hb q he; exact absurd he (bs hb)
  case arr => intro t e _ ih q he; exact ⟨by simp, .arr _ _ (ih q he).2⟩
  case obj => intro t e _ ih q he; exact ⟨by simp, .obj _ _ (ih q he).2⟩
  case aeof => intro s _ q he; cases he
  case aelem =>
    intro s u e hs _ hu ih q he
    obtain ⟨h1, h2⟩ := ih q he
    refine ⟨by simp [h1], ?_⟩
    rw [List.append_assoc]
    exact .elem _ _ _ hs h2 (head_more (P := fun c => ¬ Spec.Sep [c] ∧ c ≠ 0x5D) h1 hu)
  case anext =>
    intro s t ts v e hs hv hF _ ih q he
    obtain ⟨h1, h2⟩ := ih q he
    refine ⟨by simp [h1], ?_⟩
    rw [List.append_assoc]
    exact .next _ _ _ _ _ hs hv (follow_more hF h1) h2
  case oeof => intro s _ q he; cases he
  case noKey => intro s c t _ _ q he; cases he
  case keyChar =>
    intro s c t h1 h2 h3 h4 h5 q _
    refine ⟨by simp, ?_⟩
    rw [List.append_assoc]
    exact .key_char _ _ _ h1 h2 h3 h4 h5
  case key => intro s t e _ hb q he; exact absurd he (bs hb)
  case noColon => intro s k d b u _ _ _ _ q he; cases he
  case colonChar =>
    intro s k d b c t h1 h2 h3 h4 h5 h6 h7 q _
    refine ⟨by simp, ?_⟩
    rw [List.append_assoc]
    exact .colon_char _ _ _ _ _ _ h1 h2 h3 h4 h5 h6 h7
  case noValue => intro s k d b1 b2 u _ _ _ _ _ q he; cases he
  case value =>
    intro s k d b1 b2 u e h1 h2 h3 h4 _ hu ih q he
    obtain ⟨g1, g2⟩ := ih q he
    refine ⟨by simp, ?_⟩
    rw [List.append_assoc]
    exact .value _ _ _ _ _ _ _ h1 h2 h3 h4 g2 (head_more (P := fun c => ¬ Spec.Sep [c] ∧ c ≠ 0x7D ∧ c ≠ 0x3A) g1 hu)
  case onext =>
    intro s k b1 b2 t ts d v e h1 h2 h3 h4 hv hF _ ih q he
    obtain ⟨g1, g2⟩ := ih q he
    refine ⟨by simp, ?_⟩
    rw [List.append_assoc]
    exact .next _ _ _ _ _ _ _ _ _ h1 h2 h3 h4 hv (follow_more hF g1) g2

/-- Reading in pieces: where the error is ErrRawBytesUnrecognized and there is more than white space, it is the same whatever follows, so
no continuation of the text is accepted. -/
theorem C73_final (E : Env) (s q : Bytes) (v : V) (hs : ¬ Blank s) (h : goUnmarshal E s = .ok (s, v, some .rawBytesUnrecognized)) :
    ∃ w, goUnmarshal E (s ++ q) = .ok (s ++ q, w, some .rawBytesUnrecognized) := by
  rw [goUnmarshal_err, unmarshal_err_iff]
  have ht := (unmarshal_err_iff E s _).1 (goUnmarshal_err.1 ⟨v, h⟩)
  generalize he : Err.rawBytesUnrecognized = e at ht
  cases ht with
  | empty => cases he
  | blank _ hb _ => exact absurd hb hs
  | value b u e hb hu hv =>
    obtain ⟨h1, h2⟩ := raw_more hv q he.symm
    rw [List.append_assoc]
    exact .value _ _ _ hb (head_more (P := fun c => ¬ Blank [c]) h1 hu) h2
  | trailing b t r j hb hv hF hr =>
    have hr' : r ≠ [] := by rintro rfl; exact hr (by simp [Blank])
    rw [List.append_assoc]
    exact .trailing _ _ _ _ hb hv (follow_more hF hr') (fun hbl => hr fun c hc => hbl c (by simp [hc]))

/-- No proper beginning of a document is a document, unless the document is a number or what is missing is white space. -/
theorem C73_truncated (E : Env) (p q : Bytes) (v : V) (h : goUnmarshal E (p ++ q) = .ok (p ++ q, v, none)) (hv : isNumber v = .ok false) (hq : ¬ Blank q) :
    ∃ w e, goUnmarshal E p = .ok (p, w, some e) ∧ (¬ Blank p → e ≠ .rawBytesUnrecognized) := by
  rcases goUnmarshal_cases E p with ⟨w, h1, h2⟩ | ⟨e, h1, h2⟩
  · exfalso
    obtain ⟨j, ⟨b1, t, b2, rfl, hb1, hval, hb2⟩, rfl⟩ := (unmarshal_iff E p w).1 h1
    by_cases hn : Follow j (b2 ++ q)
    · have : TextErr (NumTok E) (b1 ++ t ++ (b2 ++ q)) .rawBytesUnrecognized := .trailing _ _ _ _ hb1 hval hn (fun hbl => hq fun c hc => hbl c (by simp [hc]))
      have := (unmarshal_err_iff E _ _).2 this
      rw [← List.append_assoc] at this
      have h' := (goUnmarshal_ok.1 h).2
      rw [this] at h'; cases h'
    · -- only a number may go on
      cases j with
      | num t' =>
        obtain ⟨j', ⟨c1, t2, c2, he, hc1, hval', hc2⟩, rfl⟩ := (unmarshal_iff E _ v).1 (goUnmarshal_ok.1 h).2
        cases hval with
        | num t hnt =>
          obtain ⟨⟨c, u, rfl, hc⟩, -⟩ := id hnt
          have e0 : b1 ++ (c :: u ++ (b2 ++ q)) = c1 ++ (t2 ++ c2) := by rw [List.append_assoc, List.append_assoc, List.append_assoc] at he; simpa using he
          obtain ⟨c', t2', rfl, g1, -⟩ := lenient_complete E hval'
          have s1 := skipBlanks_blank (s := c :: u ++ (b2 ++ q)) hb1
          rw [e0, skipBlanks_blank hc1, List.cons_append, List.cons_append, skipBlanks_nb g1, skipBlanks_nb (isNumStart_facts hc).1] at s1
          simp only [List.cons.injEq] at s1
          rw [s1.1] at hval'
          have : ∃ x, j' = .num x := by
            cases hval' with
            | num t h => exact ⟨_, rfl⟩
            | _ => exact absurd hc (by decide)
          obtain ⟨x, rfl⟩ := this
          simp [isNumber, toV, onV] at hv
      | _ => exact hn trivial
  · refine ⟨_, e, h2, fun hp he => ?_⟩
    subst he
    obtain ⟨w, hw⟩ := C73_final E p q _ hp h2
    rw [h] at hw; cases hw

/-! ### which errors there are -/

theorem verr_listed {n : Bytes → Prop} {u : Bytes} {e : Err} (h : VErr n u e) :
    e ∈ [Err.rawBytesUnrecognized, .notValidBoolValue, .notValidNullValue, .notArrayValue, .notObjectValue, .illegalString, .other] := by
  have bs : ∀ {t e}, BadStr t e → e ∈ [Err.rawBytesUnrecognized, .notValidBoolValue, .notValidNullValue, .notArrayValue, .notObjectValue, .illegalString, .other] := fun hb => by
    obtain ⟨p, d, u, -, -, -, -, ⟨-, rfl⟩ | ⟨-, rfl⟩⟩ := hb <;> decide
  refine @VErr.rec n (fun u e _ => e ∈ [Err.rawBytesUnrecognized, .notValidBoolValue, .notValidNullValue, .notArrayValue, .notObjectValue, .illegalString, .other])
    (fun u e _ => e ∈ [Err.rawBytesUnrecognized, .notValidBoolValue, .notValidNullValue, .notArrayValue, .notObjectValue, .illegalString, .other])
    (fun u e _ => e ∈ [Err.rawBytesUnrecognized, .notValidBoolValue, .notValidNullValue, .notArrayValue, .notObjectValue, .illegalString, .other])
    ?char ?tru ?fls ?nshort ?null ?num ?str ?arr ?obj ?aeof ?aelem ?anext ?oeof ?noKey ?keyChar ?key ?noColon ?colonChar ?noValue ?value ?onext u e h
  case str => intro t e hb; exact bs hb
  case key => intro s t e _ hb; exact bs hb
  case arr | obj => intro t e _ ih; exact ih
  case aelem => intro s u e _ _ _ ih; exact ih
  case anext => intro s t ts v e _ _ _ _ ih; exact ih
  case value => intro s k d b1 b2 u e _ _ _ _ _ _ ih; exact ih
  case onext => intro s k b1 b2 t ts d v e _ _ _ _ _ _ _ ih; exact ih
  all_goals intros; decide

/-- The errors there are. ErrNotValidNumberValue is not among them: a number that is not valid is reported by an error without a constant. -/
theorem C73_listed (E : Env) (s : Bytes) (v : V) (e : Err) (h : goUnmarshal E s = .ok (s, v, some e)) :
    (e = .nilParameter ↔ s = []) ∧
    e ∈ [Err.nilParameter, .rawBytesUnrecognized, .notValidBoolValue, .notValidNullValue, .notArrayValue, .notObjectValue, .illegalString, .other] := by
  have ht := (unmarshal_err_iff E s _).1 (goUnmarshal_err.1 ⟨v, h⟩)
  cases ht with
  | empty => simp
  | blank _ _ hs => simp [hs]
  | value b u e hb hu hv =>
    have := verr_listed hv
    refine ⟨⟨fun he => ?_, fun he => ?_⟩, List.mem_cons_of_mem _ this⟩
    · subst he; exact absurd this (by decide)
    · have : u = [] := by simp at he; exact he.2
      subst this
      nomatch hv
  | trailing b t r j hb hv hF hr =>
    refine ⟨⟨fun he => (nomatch he), fun he => ?_⟩, by simp⟩
    have : r = [] := by simp at he; exact he.2.2
    subst this
    exact absurd (by simp [Blank]) hr

/-- Documents that are not containers, by their first byte: what begins with `t` or `f` and is no bool is reported by ErrNotValidBoolValue, and so is what
begins with `n` and is not null, if it has four bytes or more; if it has less, by ErrNotValidNullValue. -/
theorem C73_literals (E : Env) (t : Bytes) :
    ((∀ r, t ≠ [0x72, 0x75, 0x65] ++ r) → ∃ v, goUnmarshal E (0x74 :: t) = .ok (0x74 :: t, v, some .notValidBoolValue)) ∧
    ((∀ r, t ≠ [0x61, 0x6C, 0x73, 0x65] ++ r) → ∃ v, goUnmarshal E (0x66 :: t) = .ok (0x66 :: t, v, some .notValidBoolValue)) ∧
    (t.length < 3 → ∃ v, goUnmarshal E (0x6E :: t) = .ok (0x6E :: t, v, some .notValidNullValue)) ∧
    (3 ≤ t.length → (∀ r, t ≠ [0x75, 0x6C, 0x6C] ++ r) → ∃ v, goUnmarshal E (0x6E :: t) = .ok (0x6E :: t, v, some .notValidBoolValue)) := by
  have hv : ∀ {c e}, isBlank c = false → VErr (NumTok E) (c :: t) e → ∃ v, goUnmarshal E (c :: t) = .ok (c :: t, v, some e) := fun {c e} hc h => by
    rw [goUnmarshal_err, unmarshal_err_iff]
    exact .value [] (c :: t) e Blank_nil (fun c' t' hh => by
      simp only [List.cons.injEq] at hh
      rw [← hh.1]; exact notBlank_one.2 hc) h
  exact ⟨fun h => hv (by decide) (.tru t h), fun h => hv (by decide) (.fls t h), fun h => hv (by decide) (.null_short t h), fun h1 h2 => hv (by decide) (.null t h1 h2)⟩

/-- `nulx` gives ErrNotValidBoolValue, and `-` an error that is not ErrNotValidNumberValue. -/
theorem C73_counterexample : ¬ C73_statement ∧ (∀ E, goUnmarshal E (asc "nulx") = .ok (asc "nulx", .notExist, some .notValidBoolValue)) ∧
    (∀ E, goUnmarshal E (asc "-") = .ok (asc "-", .notExist, some .other)) := by
  refine ⟨fun h => ?_, fun E => rfl, fun E => rfl⟩
  have := (h { sampleEnv with parseFloat := fun _ => none } (asc "nulx") _ _ (fun t _ ht => absurd rfl ht) rfl).2.1 (asc "ulx") rfl (fun r hr => by
    have := congrArg (fun l => l.take 4) hr
    simp only [litNull, List.cons_append, List.take_succ_cons, List.take_zero] at this
    exact absurd this (by decide))
  cases this

-- one text for each error; a document cut off in the middle
example (E : Env) : goUnmarshal E [] = .ok ([], .nilp, some .nilParameter) ∧ goUnmarshal E (asc " ") = .ok (asc " ", .notExist, some .rawBytesUnrecognized) ∧
    goUnmarshal E (asc "[true}") = .ok (asc "[true}", .notExist, some .rawBytesUnrecognized) ∧ goUnmarshal E (asc "[tru") = .ok (asc "[tru", .notExist, some .notValidBoolValue) ∧
    goUnmarshal E (asc "[nul") = .ok (asc "[nul", .notExist, some .notValidNullValue) ∧ goUnmarshal E (asc "[{}") = .ok (asc "[{}", .notExist, some .notArrayValue) ∧
    goUnmarshal E (asc "[{") = .ok (asc "[{", .notExist, some .notObjectValue) ∧ goUnmarshal E (asc "\"\\uD800\\u0041\"") = .ok (asc "\"\\uD800\\u0041\"", .notExist, some .illegalString) ∧
    goUnmarshal E (asc "[\"a") = .ok (asc "[\"a", .notExist, some .other) := ⟨rfl, rfl, rfl, rfl, rfl, rfl, rfl, rfl, rfl⟩
example (E : Env) : goUnmarshal E (asc "{\"a\":[true" ++ asc "]}") = .ok (asc "{\"a\":[true" ++ asc "]}", .obj 1 [⟨asc "a", 1, .arr [.bool true]⟩] none, none) ∧ ¬ Blank (asc "]}") :=
  ⟨rfl, by intro h; have := h 0x5D (by decide); revert this; decide⟩

end JV
