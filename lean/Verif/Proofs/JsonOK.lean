import Verif.Spec.Exact
import Verif.Proofs.DocExact
import Verif.Proofs.Exact
import Verif.Proofs.EscBytes
import Verif.Proofs.MarshalApi
import Verif.Proofs.Layout
/-! Exactly which values Marshal writes as JSON. -/
namespace JV
open Spec

variable {E : Env} {S : SortFn} {o : Opt} {T : Escaper}

/-! ### string literals -/

theorem strBody_ge {b d : Bytes} (h : StrBody b d) : ∀ c ∈ b, 0x20 ≤ c.toNat := by
  have hexb : ∀ c v, Hex c v → 0x20 ≤ c.toNat := by
    intro c v hc
    unfold Hex at hc
    rcases hc with hc | hc | hc <;> omega
  have uesc : ∀ e r, UEsc e r → ∀ c ∈ e, 0x20 ≤ c.toNat := by
    rintro e r ⟨a, b, c, d, va, vb, vc, vd, rfl, ha, hb, hc, hd, -⟩ x hx
    simp only [List.mem_cons, List.not_mem_nil, or_false] at hx
    rcases hx with rfl | rfl | rfl | rfl | rfl | rfl
    · decide
    · decide
    · exact hexb _ _ ha
    · exact hexb _ _ hb
    · exact hexb _ _ hc
    · exact hexb _ _ hd
  induction h with
  | nil => intro c hc; cases hc
  | char r t d hr h1 h2 h3 _ ih =>
    intro c hc
    rcases List.mem_append.1 hc with hc | hc
    · by_cases hlt : c.toNat < 0x80
      · have := utf8_ascii_mem hr hlt hc
        omega
      · omega
    · exact ih c hc
  | esc c b t d he _ ih =>
    intro x hx
    simp only [List.mem_cons] at hx
    rcases hx with rfl | rfl | hx
    · decide
    · unfold EscChar at he
      rcases he with ⟨rfl, -⟩ | ⟨rfl, -⟩ | ⟨rfl, -⟩ | ⟨rfl, -⟩ | ⟨rfl, -⟩ | ⟨rfl, -⟩ | ⟨rfl, -⟩ | ⟨rfl, -⟩ <;> decide
    · exact ih x hx
  | uni e r t d h1 _ _ ih =>
    intro c hc
    rcases List.mem_append.1 hc with hc | hc
    · exact uesc e r h1 c hc
    · exact ih c hc
  | pair e1 e2 hi lo t d h1 h2 _ _ _ _ _ ih =>
    intro c hc
    rcases List.mem_append.1 hc with hc | hc
    · rcases List.mem_append.1 hc with hc | hc
      · exact uesc e1 _ h1 c hc
      · exact uesc e2 _ h2 c hc
    · exact ih c hc

theorem escText_vt (hV : T.ascii 0xB = .nothing) {s : Bytes} (h : 0xB ∈ s) : (0xB : UInt8) ∈ escText T s := by
  unfold escText
  refine List.mem_flatMap.2 ⟨0xB, vt_mem_runes (Decodes_runes s) h, ?_⟩
  unfold escRune
  rw [if_pos (by decide), hV]
  decide

theorem escOf_vt (d : Opt) (opts : List MOpt) : (escOf d opts).ascii 0xB = .nothing := by
  unfold escOf
  rw [parseEscaping_ascii]
  split
  · rfl
  · split <;> rfl

/-- a quoted string is a JSON literal exactly without U+000B -/
theorem escText_iff (hT : ∀ n, n < 128 → EscOK n (T.ascii n)) (hV : T.ascii 0xB = .nothing) (s : Bytes) : (∃ d, StrBody (escText T s) d) ↔ 0xB ∉ s := by
  constructor
  · rintro ⟨d, h⟩ hs
    have := strBody_ge h _ (escText_vt hV hs)
    simp at this
  · intro h
    exact ⟨_, (strOK_strict hT).esc s h⟩

theorem escText_good (hT : ∀ n, n < 128 → EscOK n (T.ascii n)) (hV : T.ascii 0xB = .nothing) (s : Bytes) : QGood (escText T s) := by
  refine ⟨?_, fun h => (escText_iff hT hV s).2 fun hs => by have := h _ (escText_vt hV hs); simp at this⟩
  unfold escText
  have := fun r hr => (Decodes_runes s).scalar r hr
  generalize runes s = rs at this
  induction rs with
  | nil => exact .nil
  | cons r rs ih =>
    rw [List.flatMap_cons]
    refine QBody.append ?_ (ih fun x hx => this x (by simp [hx]))
    by_cases hr : r = 0xB
    · subst hr
      unfold escRune
      rw [if_pos (by decide), hV]
      exact .char _ _ (by decide) (by decide) .nil
    · have := escRune_body hT (this r (by simp)) hr .nil
      rw [List.append_nil] at this
      exact (strBody_raw this).q

/-! ### leaves -/

theorem docX_leaf {a : Bytes} {j : J} (h : DocX (.leaf a) j) :
    a = nullText ∨ (∃ b, a = formatBool b) ∨ JNum a ∨ (∃ t d, StrBody t d ∧ a = 0x22 :: t ++ [0x22]) ∨ a = [0x5B, 0x5D] ∨ a = [0x7B, 0x7D] := by
  cases h with
  | null => simp
  | bool b => exact .inr (.inl ⟨b, rfl⟩)
  | num t h => simp [h]
  | str t d h => right; right; right; left; exact ⟨t, d, h, rfl⟩
  | arrNil => simp
  | objNil => simp

theorem docX_nil {j : J} : ¬ DocX (.leaf []) j := by
  intro h
  rcases docX_leaf h with h | ⟨b, h⟩ | h | ⟨t, d, -, h⟩ | h | h
  · cases h
  · cases b <;> cases h
  · obtain ⟨⟨c, u, h, -⟩, -⟩ := jnum_shape h; cases h
  · cases h
  · cases h
  · cases h

theorem docX_quoted {a : Bytes} {j : J} (h : DocX (.leaf (0x22 :: a ++ [0x22])) j) : ∃ d, StrBody a d := by
  rcases docX_leaf h with h | ⟨b, h⟩ | h | ⟨t, d, hd, h⟩ | h | h
  · simp [nullText] at h
  · cases b <;> simp [formatBool] at h
  · obtain ⟨⟨c, u, h, hc⟩, -⟩ := jnum_shape h
    simp at h
    rw [← h.1] at hc
    exfalso; unfold Digit at hc; revert hc; decide
  · simp at h; subst h; exact ⟨d, hd⟩
  · simp at h
  · simp at h

theorem docX_numChars {a : Bytes} {j : J} (ha : ∀ c ∈ a, NumChar c) (h : DocX (.leaf a) j) : JNum a := by
  have hno : ∀ c, ¬ NumChar c → c ∈ a → False := fun c hc hm => hc (ha c hm)
  rcases docX_leaf h with rfl | ⟨b, rfl⟩ | h | ⟨t, d, hd, rfl⟩ | rfl | rfl
  · exact (hno 0x6E (by unfold NumChar Digit; decide) (by decide)).elim
  · cases b
    · exact (hno 0x66 (by unfold NumChar Digit; decide) (by decide)).elim
    · exact (hno 0x74 (by unfold NumChar Digit; decide) (by decide)).elim
  · exact h
  · exact (hno 0x22 (by unfold NumChar Digit; decide) (by simp)).elim
  · exact (hno 0x5B (by unfold NumChar Digit; decide) (by decide)).elim
  · exact (hno 0x7B (by unfold NumChar Digit; decide) (by decide)).elim

/-! ### special numbers -/

theorem replace_total (E : Env) (o : Opt) (s : Special) : ∃ r, Replace E o s r := by
  cases s with
  | nan =>
    by_cases h1 : o.nanType = 1
    · cases hv : isValidFloat o.nanToFloat
      · exact ⟨_, .nanFloatBad h1 hv⟩
      · exact ⟨_, .nanFloat h1 hv⟩
    by_cases h2 : o.nanType = 2
    · exact ⟨_, .nanNull h2⟩
    by_cases h3 : o.nanType = 3
    · exact ⟨_, .nanStr _ h3 (cleaned_runes _)⟩
    · exact ⟨_, .nanErr h1 h2 h3⟩
  | infP =>
    by_cases h1 : o.infType = 1
    · cases hv : isValidFloat o.infToFloat
      · exact ⟨_, .infFloatBad _ (by simp) h1 hv⟩
      · exact ⟨_, .infPFloat h1 hv⟩
    by_cases h2 : o.infType = 2
    · exact ⟨_, .infNull _ (by simp) h2⟩
    by_cases h3 : o.infType = 3
    · exact ⟨_, .infPStr _ h3 (cleaned_runes _)⟩
    · exact ⟨_, .infErr _ (by simp) h1 h2 h3⟩
  | infN =>
    by_cases h1 : o.infType = 1
    · cases hv : isValidFloat o.infToFloat
      · exact ⟨_, .infFloatBad _ (by simp) h1 hv⟩
      · exact ⟨_, .infNFloat h1 hv⟩
    by_cases h2 : o.infType = 2
    · exact ⟨_, .infNull _ (by simp) h2⟩
    by_cases h3 : o.infType = 3
    · exact ⟨_, .infNStr _ h3 (cleaned_runes _)⟩
    · exact ⟨_, .infErr _ (by simp) h1 h2 h3⟩

theorem spec_refused {s : Special} {e : Err} (h : Replace E o s (.inr e)) : specText E o T s = [] := by
  cases h with
  | nanFloatBad h1 h2 => simp [specText, h1, h2]
  | nanErr h1 h2 h3 => simp [specText, h1, h2, h3]
  | infFloatBad _ h0 h1 h2 => cases s <;> simp_all [specText]
  | infErr _ h0 h1 h2 h3 => cases s <;> simp_all [specText]

/-- the text for a replaced number: a number, null, or a literal -/
theorem spec_given (hT : ∀ n, n < 128 → EscOK n (T.ascii n)) (hV : T.ascii 0xB = .nothing) {s : Special} {j : J} (h : Replace E o s (.inl j)) :
    (∃ f, isValidFloat f = true ∧ j = .num (E.jsonFloat f) ∧ specText E o T s = E.jsonFloat f) ∨ (j = .null ∧ specText E o T s = nullText) ∨
    (∃ b d, j = .str d ∧ specText E o T s = 0x22 :: b ++ [0x22] ∧ LStr b d ∧ (0xB ∈ d → 0xB ∈ b) ∧ QGood b) := by
  have quoted : ∀ s d, Cleaned s d → ∃ b d', J.str d = .str d' ∧ 0x22 :: escText T s ++ [0x22] = 0x22 :: b ++ [0x22] ∧ LStr b d' ∧ (0xB ∈ d' → 0xB ∈ b) ∧ QGood b := by
    intro s d hd
    have e := cleaned_unique (cleaned_runes s) hd
    subst e
    refine ⟨escText T s, _, rfl, rfl, escText_lenient hT s, fun hm => ?_, escText_good hT hV s⟩
    by_cases hs : (0xB : UInt8) ∈ s
    · exact escText_vt hV hs
    · obtain ⟨r, hr, hr2⟩ := List.mem_flatMap.1 hm
      have := utf8_ascii_mem ((Decodes_runes s).scalar r hr) (by decide) hr2
      subst this; exact absurd (mem_runes_vt (Decodes_runes s) hr) hs
  have plainC : ∀ s : Bytes, ValidUTF8 s → ∀ d, Cleaned s d → d = s := fun s hv d hd => cleaned_valid hv hd
  have vNaN : ValidUTF8 [0x4E, 0x61, 0x4E] := ⟨[0x4E, 0x61, 0x4E], by decide, by decide⟩
  have vInfP : ValidUTF8 [0x2B, 0x49, 0x6E, 0x66] := ⟨[0x2B, 0x49, 0x6E, 0x66], by decide, by decide⟩
  have vInfN : ValidUTF8 [0x2D, 0x49, 0x6E, 0x66] := ⟨[0x2D, 0x49, 0x6E, 0x66], by decide, by decide⟩
  have hp := (strOK_lenient hT).plain
  have hg := (strOK_strict hT).plain
  cases h with
  | nanFloat c1 c2 => exact .inl ⟨_, c2, rfl, by simp [specText, c1, c2]⟩
  | nanNull c1 => exact .inr (.inl ⟨rfl, by simp [specText, c1]⟩)
  | nanStr d c1 c2 =>
    right; right
    simp only [specText, c1]
    by_cases he : o.nanToString = []
    · rw [if_pos he] at c2
      have := plainC _ vNaN d c2; subst this
      simp only [he, if_true]; exact ⟨[0x4E, 0x61, 0x4E], _, rfl, rfl, hp.1, id, qgood_strBody hg.1⟩
    · rw [if_neg he] at c2
      simp only [he, if_false]; exact quoted _ d c2
  | infPFloat c1 c2 => exact .inl ⟨_, c2, rfl, by simp [specText, c1, c2]⟩
  | infNFloat c1 c2 => exact .inl ⟨_, valid_fneg c2, rfl, by simp [specText, c1, c2]⟩
  | infNull _ c0 c1 => right; left; refine ⟨rfl, ?_⟩; cases s <;> simp only [specText, c1] <;> first | exact absurd rfl c0 | rfl
  | infPStr d c1 c2 =>
    right; right
    simp only [specText, c1]
    by_cases he : o.infPos = []
    · rw [if_pos he] at c2
      have := plainC _ vInfP d c2; subst this
      simp only [he, if_true]; exact ⟨[0x2B, 0x49, 0x6E, 0x66], _, rfl, rfl, hp.2.1, id, qgood_strBody hg.2.1⟩
    · rw [if_neg he] at c2
      simp only [he, if_false]; exact quoted _ d c2
  | infNStr d c1 c2 =>
    right; right
    simp only [specText, c1]
    by_cases he : o.infNeg = [] ∧ o.infPos = []
    · simp only [he.1, he.2] at c2
      have := plainC _ vInfN d c2; subst this
      simp only [he, if_true]; exact ⟨[0x2D, 0x49, 0x6E, 0x66], _, rfl, rfl, hp.2.2, id, qgood_strBody hg.2.2⟩
    · have c3 : Cleaned (infNegString o) d := c2
      simp only [he, if_false]; exact quoted _ d c3

/-! ### commas -/

theorem om_iff (e : Ent) : (isNullV e.v && o.omitNull) = true ↔ Omitted o e := by
  unfold Omitted
  rw [Bool.and_eq_true, and_comm]
  refine and_congr Iff.rfl ?_
  cases e.v <;> simp [isNullV]

theorem docMems_none {f : Ent → Option ParentInfo → Doc} {par : Option ParentInfo} (es : List Ent) : (∀ m ∈ docMems o T par false (es.map fun e => (e, f e)), DMem.comma m = true) ↔ ∀ e ∈ es, Omitted o e := by
  induction es with
  | nil => simp [docMems]
  | cons e es ih =>
    simp only [List.map_cons, docMems]
    split
    · rename_i h; rw [ih]; simp [(om_iff e).1 h]
    · rename_i h
      simp only [List.mem_cons, forall_eq_or_imp, mt (om_iff e).2 h, false_and, iff_false, not_and]
      intro hc; simp [DMem.comma] at hc

theorem docMems_tail {f : Ent → Option ParentInfo → Doc} {par : Option ParentInfo} (es : List Ent) : (∀ m ∈ docMems o T par true (es.map fun e => (e, f e)), DMem.comma m = true) ↔
    ∃ b c, es = b ++ c ∧ (∀ e ∈ b, ¬ Omitted o e) ∧ (∀ e ∈ c, Omitted o e) := by
  induction es with
  | nil => simp only [List.map_nil, docMems]; exact ⟨fun _ => ⟨[], [], rfl, by simp, by simp⟩, fun _ => by simp⟩
  | cons e es ih =>
    simp only [List.map_cons, docMems]
    split
    · rename_i h
      have he := (om_iff e).1 h
      rw [docMems_none]
      constructor
      · intro h'; exact ⟨[], e :: es, rfl, by simp, by simpa [he] using h'⟩
      · rintro ⟨b, c, h1, h2, h3⟩
        cases b with
        | nil => simp at h1; subst h1; exact fun x hx => h3 x (by simp [hx])
        | cons x b => simp at h1; exact absurd (h1.1 ▸ he) (h2 x (by simp))
    · rename_i h
      have he := mt (om_iff e).2 h
      rw [List.forall_mem_cons, and_iff_right (show DMem.comma (DMem.mk true _ _) = true from rfl), ih]
      constructor
      · rintro ⟨b, c, rfl, h2, h3⟩; exact ⟨e :: b, c, rfl, by simpa [he] using h2, h3⟩
      · rintro ⟨b, c, h1, h2, h3⟩
        cases b with
        | nil => simp at h1; exact absurd (h3 e (by simp [← h1])) he
        | cons x b => simp at h1; exact ⟨b, c, h1.2, fun y hy => h2 y (by simp [hy]), h3⟩

theorem commas_tight {f : Ent → Option ParentInfo → Doc} {par : Option ParentInfo} (es : List Ent) : Commas (docMems o T par false (es.map fun e => (e, f e))) ↔ Tight o es := by
  induction es with
  | nil => simp only [List.map_nil, docMems, Commas, true_iff]; exact ⟨[], [], [], rfl, by simp, by simp, by simp⟩
  | cons e es ih =>
    simp only [List.map_cons, docMems]
    split
    · rename_i h
      have he := (om_iff e).1 h
      rw [ih]
      constructor
      · rintro ⟨a, b, c, rfl, h1, h2, h3⟩; exact ⟨e :: a, b, c, rfl, by simpa [he] using h1, h2, h3⟩
      · rintro ⟨a, b, c, h0, h1, h2, h3⟩
        cases a with
        | cons x a => simp at h0; exact ⟨a, b, c, by simpa using h0.2, fun y hy => h1 y (by simp [hy]), h2, h3⟩
        | nil =>
          cases b with
          | cons x b => simp at h0; exact absurd (h0.1 ▸ he) (h2 x (by simp))
          | nil => simp at h0; subst h0; exact ⟨[], [], es, rfl, by simp, by simp, fun y hy => h3 y (by simp [hy])⟩
    · rename_i h
      have he := mt (om_iff e).2 h
      simp only [Commas]
      rw [and_iff_right (show DMem.comma (DMem.mk false _ _) = false from rfl), docMems_tail]
      constructor
      · rintro ⟨b, c, rfl, h2, h3⟩; exact ⟨[], e :: b, c, rfl, by simp, by simpa [he] using h2, h3⟩
      · rintro ⟨a, b, c, h0, h1, h2, h3⟩
        cases a with
        | cons x a => simp at h0; exact absurd (h1 e (by simp [h0.1])) he
        | nil =>
          cases b with
          | cons x b => simp at h0; exact ⟨b, c, h0.2, fun y hy => h2 y (by simp [hy]), h3⟩
          | nil => simp at h0; exact absurd (h3 e (by simp [← h0])) he

theorem mem_shown {es : List Ent} {e : Ent} : e ∈ shown o es ↔ e ∈ es ∧ ¬ Omitted o e := by
  have := om_iff (o := o) e
  unfold shown
  split
  · rename_i h
    rw [List.mem_filter]
    rw [h, Bool.and_true] at this
    rw [← this]; simp
  · rename_i h
    rw [and_iff_left]
    exact fun hm => h hm.1

/-! ### the whole value -/

/-- number texts are made of the characters of numbers -/
def NumTextsOK : V → Prop
  | .num src _ => ∀ c ∈ src, NumChar c
  | _ => True

theorem spec_tok (hT : ∀ n, n < 128 → EscOK n (T.ascii n)) (hV : T.ascii 0xB = .nothing) (hF : ∀ f, isValidFloat f = true → JNum (E.jsonFloat f)) (s : Special) : Tok (.leaf (specText E o T s)) := by
  obtain ⟨r, hr⟩ := replace_total E o s
  cases r with
  | inr e => rw [spec_refused hr]; exact .num [] (by simp)
  | inl j =>
    rcases spec_given hT hV hr with ⟨f, hf, -, h⟩ | ⟨-, h⟩ | ⟨b, d, -, h, hb, -, hq⟩
    · rw [h]; exact .num _ (jnum_shape (hF f hf)).2
    · rw [h]; exact .null
    · rw [h]; exact .str b d hb hq

theorem doc_tok (hT : ∀ n, n < 128 → EscOK n (T.ascii n)) (hV : T.ascii 0xB = .nothing) (hF : ∀ f, isValidFloat f = true → JNum (E.jsonFloat f)) (v : V) (hk : Her KeysNodup v)
    (hn : Her NumTextsOK v) (par : Option ParentInfo) : Tok (doc E S o T v par) := by
  induction v using kid_ind generalizing par with
  | step v ih =>
    have ihk : ∀ c, Kid v c → ∀ p, Tok (doc E S o T c p) := fun c hc p => ih c hc (her_kid hk hk hc) (her_kid hk hn hc) p
    have hn0 := her_self hn
    cases v with
    | nilp => exact .num [] (by simp)
    | notExist => exact .num [] (by simp)
    | null => exact .null
    | bool b => exact .bool b
    | str s => exact .str _ _ (escText_lenient hT s) (escText_good hT hV s)
    | num src n =>
      unfold doc numText
      cases hsp : special src n with
      | none => exact .num _ hn0
      | some s => exact spec_tok hT hV hF s
    | arr xs =>
      unfold doc
      split
      · exact .arrNil
      · rename_i h0
        refine .arr _ (by intro h; have := congrArg List.length h; rw [docElems_length] at this; exact h0 this) ?_
        intro d hd
        obtain ⟨i, hi⟩ := List.mem_iff_getElem?.1 hd
        rw [docElems_get] at hi
        obtain ⟨x, hx, rfl⟩ := Option.map_eq_some_iff.1 hi
        exact ihk x (List.mem_of_getElem? hx) _
    | obj n kvs low =>
      by_cases h0 : kvs = []
      · subst h0; unfold doc; exact .objNil
      · rw [doc_obj _ _ _ _ h0]
        refine .obj _ ?_ ?_ ?_
        · intro m hm
          obtain ⟨i, hi⟩ := List.mem_iff_getElem?.1 hm
          obtain ⟨e, he, h1, -⟩ := docMems_get _ _ _ _ hi
          rw [h1]; exact ⟨_, escText_lenient hT _⟩
        · intro m hm
          obtain ⟨i, hi⟩ := List.mem_iff_getElem?.1 hm
          obtain ⟨e, he, h1, -⟩ := docMems_get _ _ _ _ hi
          rw [h1]; exact escText_good hT hV _
        · intro m hm
          obtain ⟨i, hi⟩ := List.mem_iff_getElem?.1 hm
          obtain ⟨e, he, -, h2⟩ := docMems_get _ _ _ _ hi
          rw [h2]
          exact ihk e.v ⟨e, sorted_mem (mem_shown.1 (List.mem_of_getElem? he)).1, rfl⟩ _

/-- the parent information fits the location -/
def Fits (o : Opt) (l : List Step) (p : Option ParentInfo) : Prop := (o.lessFunc.isSome = true → InfoAt l p) ∧ (o.lessFunc.isSome = false → p = none)

theorem fits_step {l : List Step} {p : Option ParentInfo} (h : Fits o l p) (s : Step) (w : V) :
    Fits o (l ++ [s]) (if o.lessFunc.isSome then some (newParentInfo w p (stepKey s)) else none) :=
  ⟨fun h1 => by rw [if_pos h1]; exact infoAt_step (h.1 h1), fun h1 => by rw [h1]; rfl⟩

theorem docX_ok (hT : ∀ n, n < 128 → EscOK n (T.ascii n)) (hV : T.ascii 0xB = .nothing) (hF : ∀ f, isValidFloat f = true → JNum (E.jsonFloat f)) (hS : GoodSort S)
    {ord : List Step → List Ent → List Ent → Prop} (ho : ∀ l p kvs, (kvs.map Ent.key).Nodup → Fits o l p → ord l kvs (sorted S o p kvs))
    (v : V) (hk : Her KeysNodup v) (hn : Her NumTextsOK v) (hnil : Her (· ≠ .nilp) v) (l : List Step) (par : Option ParentInfo) (hl : Fits o l par) (j : J) (h : DocX (doc E S o T v par) j) :
    JsonOK E o ord l v := by
  induction v using kid_ind generalizing l par j with
  | step v ih =>
    have ihk : ∀ c, Kid v c → ∀ (s : Step) (w : V) (j : J), DocX (doc E S o T c (if o.lessFunc.isSome then some (newParentInfo w par (stepKey s)) else none)) j →
        JsonOK E o ord (l ++ [s]) c := fun c hc s w j hd => ih c hc (her_kid hk hk hc) (her_kid hk hn hc) (her_kid hk hnil hc) _ _ (fits_step hl s w) j hd
    have hn0 := her_self hn
    cases v with
    | nilp => exact absurd rfl (her_self hnil)
    | notExist => exact absurd h docX_nil
    | null => exact .null l
    | bool b => exact .bool l b
    | str s => exact .str l s ((escText_iff hT hV s).1 (docX_quoted h))
    | num src n =>
      unfold doc numText at h
      cases hsp : special src n with
      | none =>
        rw [hsp] at h
        exact .num l src n hsp (docX_numChars hn0 h)
      | some s =>
        rw [hsp] at h
        dsimp only at h
        obtain ⟨r, hr⟩ := replace_total E o s
        cases r with
        | inr e => rw [spec_refused hr] at h; exact absurd h docX_nil
        | inl j' =>
          rcases spec_given hT hV hr with ⟨f, hf, rfl, h2⟩ | ⟨rfl, h2⟩ | ⟨b, d, rfl, h2, hb, hvt, -⟩
          · exact .spec l src n s _ hsp hr (by rintro t ⟨rfl⟩; exact hF f hf) (by simp)
          · exact .spec l src n s _ hsp hr (by simp) (by simp)
          · rw [h2] at h
            refine .spec l src n s _ hsp hr (by simp) ?_
            rintro d' ⟨rfl⟩ hm
            obtain ⟨d', hd'⟩ := docX_quoted h
            have := strBody_ge hd' _ (hvt hm)
            simp at this
    | arr xs =>
      unfold doc at h
      split at h
      · rename_i h0
        have : xs = [] := by simpa using h0
        subst this
        exact .arr l [] (by simp)
      · have hget := docElems_get (E := E) (S := S) (o := o) (T := T) (.arr xs) xs 0 par
        have hlen := docElems_length (E := E) (S := S) (o := o) (T := T) (.arr xs) xs 0 par
        generalize docElems E S o T (.arr xs) xs 0 par = ds at h hget hlen
        cases h with
        | lone =>
          obtain ⟨x, rfl⟩ : ∃ x, xs = [x] := by
            cases xs with
            | nil => simp at hlen
            | cons x xs => cases xs with
              | nil => exact ⟨x, rfl⟩
              | cons y xs => simp at hlen
          have h0 := hget 0
          simp at h0
          refine .lone l x ?_
          have hk' : Her NumTextsOK x := her_kid hk hn (by simp [Kid])
          have hnil' : x ≠ .nilp := her_self (P := (· ≠ .nilp)) (her_kid hk hnil (c := x) (by simp [Kid]))
          cases x with
          | nilp => exact absurd rfl hnil'
          | notExist => exact .notExist
          | null => simp [doc, nullText] at h0
          | bool b => cases b <;> simp [doc, formatBool] at h0
          | str s => simp [doc] at h0
          | arr ys => unfold doc at h0; split at h0 <;> simp at h0
          | obj n kvs low => unfold doc at h0; split at h0 <;> simp at h0
          | num src n =>
            unfold doc numText at h0
            cases hsp : special src n with
            | none =>
              rw [hsp] at h0
              simp at h0
              subst h0
              unfold special at hsp
              simp at hsp
              (repeat' split at hsp) <;> simp at hsp
            | some s =>
              rw [hsp] at h0
              obtain ⟨r, hr⟩ := replace_total E o s
              cases r with
              | inr e => exact .num src n s e hsp hr
              | inl j' =>
                rcases spec_given hT hV hr with ⟨f, hf, rfl, h2⟩ | ⟨rfl, h2⟩ | ⟨b, d, rfl, h2, hb, hvt, -⟩
                · simp only [h2, Doc.leaf.injEq] at h0
                  obtain ⟨⟨c, u, h3, -⟩, -⟩ := jnum_shape (hF f hf)
                  rw [h3] at h0; cases h0
                · simp [h2, nullText] at h0
                · simp [h2] at h0
        | arr _ js _ h2 h3 =>
          refine .arr l xs ?_
          intro i x hx
          have hd := hget i
          rw [hx] at hd
          have hi : i < js.length := by rw [h2, hlen]; exact (List.getElem?_eq_some_iff.1 hx).1
          have := h3 i _ js[i] hd (List.getElem?_eq_getElem hi)
          rw [Nat.zero_add] at this
          exact ihk x (List.mem_of_getElem? hx) (.idx i) (.arr xs) js[i] this
    | obj n kvs low =>
      have hnd : (kvs.map Ent.key).Nodup := her_self hk
      by_cases h0 : kvs = []
      · subst h0
        have hso : sorted S o par [] = [] := List.eq_nil_iff_forall_not_mem.2 fun e he => by have := sorted_mem he; simp at this
        exact .obj l n [] low [] (.refl _) (by have := ho l par [] hnd hl; rwa [hso] at this) ⟨[], [], [], rfl, by simp, by simp, by simp⟩ (by simp) (by simp)
      · rw [doc_obj _ _ _ _ h0] at h
        have hget := @docMems_get o T (fun e => doc E S o T e.v) par (sorted S o par kvs) false
        have hlen := @docMems_length o T (fun e => doc E S o T e.v) par (sorted S o par kvs) false
        have htight := @commas_tight o T (fun e => doc E S o T e.v) par (sorted S o par kvs)
        generalize docMems o T par false ((sorted S o par kvs).map fun e => (e, doc E S o T e.v)) = ms at h hget hlen htight
        cases h with
        | obj _ es hc h1 h2 h3 =>
          have hp := sorted_perm (o := o) hS par kvs
          have each : ∀ e ∈ kvs, ¬ Omitted o e → ∃ (i : Nat) (m : DMem) (x : Mem), (shown o (sorted S o par kvs))[i]? = some e ∧ ms[i]? = some m ∧ es[i]? = some x := by
            intro e he hno
            obtain ⟨i, hi⟩ := List.mem_iff_getElem?.1 (mem_shown.2 ⟨hp.mem_iff.2 he, hno⟩)
            have hlt : i < (shown o (sorted S o par kvs)).length := (List.getElem?_eq_some_iff.1 hi).1
            have hlt2 : i < ms.length := by omega
            have hlt3 : i < es.length := by omega
            exact ⟨i, ms[i], es[i], hi, List.getElem?_eq_getElem hlt2, List.getElem?_eq_getElem hlt3⟩
          refine .obj l n kvs low _ hp (ho l par kvs hnd hl) (htight.1 hc) ?_ ?_
          · intro e he hno
            obtain ⟨i, m, x, g1, g2, g3⟩ := each e he hno
            obtain ⟨e', g4, g5, -⟩ := hget i m g2
            obtain rfl : e = e' := by rw [g1] at g4; simpa using g4
            have := h2 i m x g2 g3
            rw [g5] at this
            exact (escText_iff hT hV _).1 ⟨_, this⟩
          · intro e he hno
            obtain ⟨i, m, x, g1, g2, g3⟩ := each e he hno
            obtain ⟨e', g4, -, g5⟩ := hget i m g2
            obtain rfl : e = e' := by rw [g1] at g4; simpa using g4
            have := h3 i m x g2 g3
            rw [g5] at this
            exact ihk e.v ⟨e, he, rfl⟩ (.key e.key) e.v _ this

theorem ok_docX (hT : ∀ n, n < 128 → EscOK n (T.ascii n)) (hV : T.ascii 0xB = .nothing) (hS : GoodSort S)
    {ord : List Step → List Ent → List Ent → Prop} (ho : ∀ l p kvs es, (kvs.map Ent.key).Nodup → Fits o l p → es.Perm kvs → ord l kvs es → Tight o es → Tight o (sorted S o p kvs))
    {v : V} {l : List Step} (h : JsonOK E o ord l v) (hk : Her KeysNodup v) (par : Option ParentInfo) (hl : Fits o l par) : ∃ j, DocX (doc E S o T v par) j := by
  induction h generalizing par with
  | null l => exact ⟨_, .null⟩
  | bool l b => exact ⟨_, .bool b⟩
  | str l s hs => exact ⟨_, .str _ _ ((strOK_strict hT).esc s hs)⟩
  | num l src n hsp hj => unfold doc numText; rw [hsp]; exact ⟨_, .num _ hj⟩
  | spec l src n s j hsp hr h1 h2 =>
    unfold doc numText
    rw [hsp]
    have := spec_docJ (C := Commas) (num := JNum) (strOK_strict hT) hr h1 h2
    dsimp only
    generalize specText E o T s = a at this
    cases this with
    | null => exact ⟨_, .null⟩
    | bool b => exact ⟨_, .bool b⟩
    | num _ h => exact ⟨_, .num _ h⟩
    | str t d h => exact ⟨_, .str t d h⟩
    | arrNil => exact ⟨_, .arrNil⟩
    | objNil => exact ⟨_, .objNil⟩
  | lone l x hx =>
    refine ⟨.arr [], ?_⟩
    · unfold doc
      rw [if_neg (by simp)]
      have : ∀ p, doc E S o T x p = .leaf [] := by
        intro p
        cases hx with
        | notExist => rfl
        | num src n s e h1 h2 => unfold doc numText; rw [h1]; dsimp only; rw [spec_refused h2]
      simp only [docElems, this]
      exact .lone
  | arr l xs _ ih =>
    cases xs with
    | nil => exact ⟨_, by simp only [doc, List.length_nil, if_true]; exact .arrNil⟩
    | cons x xs =>
      obtain ⟨js, h1, h2⟩ := exists_list (P := fun i y j =>
          DocX (doc E S o T y (if o.lessFunc.isSome then some (newParentInfo (.arr (x :: xs)) par (intKey i)) else none)) j) (x :: xs)
        (fun i y hy => ih i y hy (her_kid hk hk (List.mem_of_getElem? hy)) _ (fits_step hl (.idx i) _))
      refine ⟨.arr js, ?_⟩
      unfold doc
      rw [if_neg (by simp)]
      refine .arr _ js (by intro h; have := congrArg List.length h; rw [docElems_length] at this; simp at this) (by rw [docElems_length, h1]) ?_
      intro i d j hd hj
      rw [docElems_get] at hd
      obtain ⟨y, hy, rfl⟩ := Option.map_eq_some_iff.1 hd
      have := h2 i y j hy hj
      simpa using this
  | obj l n kvs low es hp hord ht hkeys _ ih =>
    have hnd : (kvs.map Ent.key).Nodup := her_self hk
    by_cases h0 : kvs = []
    · subst h0; exact ⟨_, by simp only [doc, List.length_nil, if_true]; exact .objNil⟩
    · have hsub : ∀ e ∈ shown o (sorted S o par kvs), e ∈ kvs ∧ ¬ Omitted o e := fun e he => ⟨sorted_mem (mem_shown.1 he).1, (mem_shown.1 he).2⟩
      obtain ⟨js, h1, h2⟩ := exists_list (P := fun _ (e : Ent) (m : Mem) => m.key = (runes e.key).flatMap utf8 ∧ DocX (doc E S o T e.v (parOf o par e)) m.v) (shown o (sorted S o par kvs)) (by
        intro i e he
        have he := hsub e (List.mem_of_getElem? he)
        obtain ⟨j, hj⟩ := ih e he.1 he.2 (her_kid hk hk ⟨e, he.1, rfl⟩) _ (fits_step hl (.key e.key) e.v)
        exact ⟨⟨_, j⟩, rfl, hj⟩)
      refine ⟨.obj js, ?_⟩
      rw [doc_obj _ _ _ _ h0]
      refine .obj _ js ((commas_tight _).2 (ho l par kvs es hnd hl hp hord ht)) (by rw [docMems_length, h1]) ?_ ?_
      · intro i m e hm he
        obtain ⟨x, hx, hk, -⟩ := docMems_get _ _ _ _ hm
        rw [hk, (h2 i x e hx he).1]
        have hx := hsub x (List.mem_of_getElem? hx)
        exact (strOK_strict hT).esc _ (hkeys x hx.1 hx.2)
      · intro i m e hm he
        obtain ⟨x, hx, -, hv⟩ := docMems_get _ _ _ _ hm
        rw [hv]
        exact (h2 i x e hx he).2

/-- Marshal writes JSON exactly for these values. -/
theorem marshal_exact (hS : GoodSort S) (d : Opt) {v : V} (hv : Marshalable v) {opts : List MOpt} {b : Bytes} (hF : ∀ f, isValidFloat f = true → JNum (E.jsonFloat f))
    (hn : Her NumTextsOK v) (hi : WsIndent (optOf d opts).indent) {ord : List Step → List Ent → List Ent → Prop}
    (ho : ∀ l p kvs, (kvs.map Ent.key).Nodup → Fits (optOf d opts) l p → ord l kvs (sorted S (optOf d opts) p kvs))
    (ho' : ∀ l p kvs es, (kvs.map Ent.key).Nodup → Fits (optOf d opts) l p → es.Perm kvs → ord l kvs es → Tight (optOf d opts) es → Tight (optOf d opts) (sorted S (optOf d opts) p kvs))
    (h : marshal E S d v opts = .ok (b, none)) : (∃ j, JText b j) ↔ JsonOK E (optOf d opts) ord [] v := by
  obtain ⟨-, rfl⟩ := marshal_ok hv h
  unfold textOf
  rw [docX_iff hi (doc_tok (escOf_ok d opts) (escOf_vt d opts) hF v hv.1 hn none)]
  have hr : Fits (optOf d opts) [] none := ⟨fun _ => infoAt_root, fun _ => rfl⟩
  exact ⟨fun ⟨j, hj⟩ => docX_ok (escOf_ok d opts) (escOf_vt d opts) hF hS ho v hv.1 hn (fun l c hc he => hv.2.1 l (he ▸ hc)) [] none hr j hj,
    fun hj => ok_docX (escOf_ok d opts) (escOf_vt d opts) hS ho' hj hv.1 none hr⟩

end JV
