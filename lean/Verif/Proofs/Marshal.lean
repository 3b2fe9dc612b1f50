import Verif.Proofs.Doc
import Verif.Proofs.Strict
import Verif.Proofs.GrammarComplete
/-! What is written is a JSON text with the contents of the value. -/
namespace JV
open Spec

def DMem.comma : DMem → Bool | .mk c _ _ => c
def DMem.key : DMem → Bytes | .mk _ k _ => k
def DMem.v : DMem → Doc | .mk _ _ v => v

/-- the tokens spell the document; `C` is a condition on the commas of an object -/
inductive DocJ (num : Bytes → Prop) (str : Bytes → Bytes → Prop) (C : List DMem → Prop) : Doc → J → Prop
  | null : DocJ num str C (.leaf nullText) .null
  | bool (b) : DocJ num str C (.leaf (formatBool b)) (.bool b)
  | num (t) : num t → DocJ num str C (.leaf t) (.num t)
  | str (t d) : str t d → DocJ num str C (.leaf (0x22 :: t ++ [0x22])) (.str d)
  | arrNil : DocJ num str C (.leaf [0x5B, 0x5D]) (.arr [])
  | objNil : DocJ num str C (.leaf [0x7B, 0x7D]) (.obj [])
  | arr (xs js) : xs ≠ [] → js.length = xs.length → (∀ (i : Nat) x j, xs[i]? = some x → js[i]? = some j → DocJ num str C x j) → DocJ num str C (.arr xs) (.arr js)
  | obj (ms es) : C ms → es.length = ms.length → (∀ (i : Nat) m e, ms[i]? = some m → es[i]? = some e → str (DMem.key m) e.key) →
      (∀ (i : Nat) m e, ms[i]? = some m → es[i]? = some e → DocJ num str C (DMem.v m) e.v) → DocJ num str C (.obj ms) (.obj es)

/-- commas exactly between members -/
def Commas : List DMem → Prop
  | [] => True
  | m :: ms => DMem.comma m = false ∧ ∀ x ∈ ms, DMem.comma x = true

theorem ws_append {a b : Bytes} (ha : Ws a) (hb : Ws b) : Ws (a ++ b) := by
  intro c hc; rcases List.mem_append.1 hc with h | h
  · exact ha c h
  · exact hb c h

theorem ws_nil : Ws [] := by intro c hc; cases hc

theorem nl_ws {ind : Option (Bytes × Bytes)} (h : WsIndent ind) (d : Nat) : Ws (nl ind d) := by
  unfold nl
  match ind, h with
  | none, _ => exact ws_nil
  | some (p, i), h =>
    refine ws_append (a := [0x0A]) (by intro c hc; simp at hc; simp [hc]) (ws_append h.1 ?_)
    intro c hc
    rw [List.mem_flatten] at hc
    obtain ⟨l, hl, hc⟩ := hc
    rw [(List.mem_replicate.1 hl).2] at hc
    exact h.2 c hc

theorem elems_strict {ind : Option (Bytes × Bytes)} (hi : WsIndent ind) (d : Nat) : ∀ (xs : List Doc) (js : List J) (w : Bytes), xs ≠ [] → js.length = xs.length → Ws w →
    (∀ (i : Nat) x j, xs[i]? = some x → js[i]? = some j → JVal (x.print ind d) j) → JElems (printElems ind d true xs ++ w) js
  | [], _, _, h, _, _, _ => absurd rfl h
  | [x], [j], w, _, _, hw, h => by
    have := JElems.one (nl ind d) (x.print ind d) w j (nl_ws hi d) (h 0 x j rfl rfl) hw
    simpa [printElems] using this
  | x :: y :: xs, j :: js, w, _, hl, hw, h => by
    have ih := elems_strict hi d (y :: xs) js w (by simp) (by simpa using hl) hw fun i a b ha hb => h (i + 1) a b (by simpa using ha) (by simpa using hb)
    have := JElems.cons (nl ind d) (x.print ind d) [] _ j js (nl_ws hi d) (h 0 x j rfl rfl) ws_nil ih
    simpa [printElems] using this
  | _ :: _ :: _, [], _, _, hl, _, _ => by simp at hl
  | [_], [], _, _, hl, _, _ => by simp at hl
  | [_], _ :: _ :: _, _, _, hl, _, _ => by simp at hl

theorem space_ws (b : Bool) : Ws (if b then [0x20] else []) := by
  cases b
  · exact ws_nil
  · intro c hc; simp at hc; simp [hc]

/-- the text after the comma slot of the first member -/
theorem mems_strict {ind : Option (Bytes × Bytes)} (hi : WsIndent ind) (d : Nat) : ∀ (ms : List DMem) (es : List Mem) (w : Bytes), ms ≠ [] → es.length = ms.length → Ws w →
    Commas ms → (∀ (i : Nat) m e, ms[i]? = some m → es[i]? = some e → StrBody (DMem.key m) e.key) →
    (∀ (i : Nat) m e, ms[i]? = some m → es[i]? = some e → JVal ((DMem.v m).print ind d) e.v) → JMems (printMems ind d ms ++ w) es
  | [], _, _, h, _, _, _, _, _ => absurd rfl h
  | [⟨c, k, v⟩], [⟨dk, j⟩], w, _, _, hw, hc, hk, h => by
    have hc : c = false := hc.1
    subst hc
    have hs : JStr (0x22 :: k ++ [0x22]) dk := ⟨k, rfl, hk 0 _ _ rfl rfl⟩
    have := JMems.one (nl ind d) (0x22 :: k ++ [0x22]) [] (if ind.isSome then [0x20] else []) (v.print ind d) w dk j (nl_ws hi d) hs ws_nil (space_ws _) (h 0 _ _ rfl rfl) hw
    simpa [printMems] using this
  | ⟨c, k, v⟩ :: ⟨c', k', v'⟩ :: ms, ⟨dk, j⟩ :: es, w, _, hl, hw, hc, hk, h => by
    obtain ⟨hc1, hc2⟩ := hc
    have hc1 : c = false := hc1
    have hc3 : c' = true := hc2 ⟨c', k', v'⟩ (by simp)
    subst hc1 hc3
    have hc' : Commas (⟨false, k', v'⟩ :: ms) := ⟨rfl, fun x hx => hc2 x (by simp [hx])⟩
    have ih := mems_strict hi d (⟨false, k', v'⟩ :: ms) es w (by simp) (by simpa using hl) hw hc' (by
        intro i m e hm he
        cases i with
        | zero => simp at hm; subst hm; exact hk 1 ⟨true, k', v'⟩ e rfl (by simpa using he)
        | succ i => exact hk (i + 2) m e (by simpa using hm) (by simpa using he)) (by
        intro i m e hm he
        cases i with
        | zero => simp at hm; subst hm; exact h 1 ⟨true, k', v'⟩ e rfl (by simpa using he)
        | succ i => exact h (i + 2) m e (by simpa using hm) (by simpa using he))
    have hs : JStr (0x22 :: k ++ [0x22]) dk := ⟨k, rfl, hk 0 _ _ rfl rfl⟩
    have := JMems.cons (nl ind d) (0x22 :: k ++ [0x22]) [] (if ind.isSome then [0x20] else []) (v.print ind d) [] dk _ j es (nl_ws hi d) hs ws_nil (space_ws _) (h 0 _ _ rfl rfl) ws_nil ih
    simpa [printMems] using this
  | _ :: _ :: _, [], _, _, hl, _, _, _, _ => by simp at hl
  | [_], [], _, _, hl, _, _, _, _ => by simp at hl
  | [_], _ :: _ :: _, _, _, hl, _, _, _, _ => by simp at hl

/-- with correct commas the text is JSON -/
theorem docJ_strict {ind : Option (Bytes × Bytes)} (hi : WsIndent ind) {d : Doc} {j : J} (h : DocJ JNum StrBody Commas d j) : ∀ n, JVal (d.print ind n) j := by
  induction h with
  | null => intro n; exact .null
  | bool b => intro n; cases b; exact .fls; exact .tru
  | num t ht => intro n; exact .num t ht
  | str t d ht => intro n; exact .str _ _ ⟨t, rfl, ht⟩
  | arrNil => intro n; exact .arrNil [] ws_nil
  | objNil => intro n; exact .objNil [] ws_nil
  | arr xs js hne hl _ ih =>
    intro n
    unfold Doc.print
    exact .arr _ _ (elems_strict hi (n + 1) xs js _ hne hl (nl_ws hi n) fun i x j hx hj => ih i x j hx hj (n + 1))
  | obj ms es hC hl hk _ ih =>
    intro n
    unfold Doc.print
    cases ms with
    | nil =>
      have : es = [] := by simpa using hl
      subst this
      unfold printMems
      exact .objNil _ (nl_ws hi n)
    | cons m ms =>
      exact .obj _ _ (mems_strict hi (n + 1) (m :: ms) es _ (by simp) hl (nl_ws hi n) hC hk fun i x j hx hj => ih i x j hx hj (n + 1))

/-! the text as the parser reads it: commas do not matter -/

theorem sep_of_blank {b : Bytes} (h : Blank b) : Spec.Sep b := fun c hc => by have := h c hc; rcases this with h | h | h | h | h <;> simp [h]

theorem blank_append {a b : Bytes} (ha : Blank a) (hb : Blank b) : Blank (a ++ b) := by
  intro c hc; rcases List.mem_append.1 hc with h | h
  · exact ha c h
  · exact hb c h

theorem nl_blank {ind : Option (Bytes × Bytes)} (h : BlankIndent ind) (d : Nat) : Blank (nl ind d) := by
  unfold nl
  match ind, h with
  | none, _ => intro c hc; cases hc
  | some (p, i), h =>
    refine blank_append (a := [0x0A]) (by intro c hc; simp at hc; simp [hc]) (blank_append h.1 ?_)
    intro c hc
    rw [List.mem_flatten] at hc
    obtain ⟨l, hl, hc⟩ := hc
    rw [(List.mem_replicate.1 hl).2] at hc
    exact h.2 c hc

theorem comma_sep (b : Bool) {w : Bytes} (h : Blank w) : Spec.Sep ((if b then [0x2C] else []) ++ w) := by
  intro c hc
  rcases List.mem_append.1 hc with hc | hc
  · cases b <;> simp at hc; simp [hc]
  · exact sep_of_blank h c hc

theorem follow_of {j : J} {t : Bytes} (h : NumEnd t) : Follow j t := by unfold Follow; cases j <;> trivial

theorem numEnd_blank {w : Bytes} (h : Blank w) {t : Bytes} (ht : NumEnd t) : NumEnd (w ++ t) := by
  cases w with
  | nil => exact ht
  | cons a w =>
    intro c t' he
    obtain ⟨rfl, -⟩ : a = c ∧ _ := by simpa using he
    have := h a (by simp)
    unfold NumChar Digit
    rcases this with rfl | rfl | rfl | rfl | rfl <;> decide

theorem numEnd_cons {c : UInt8} {t : Bytes} (h : ¬ NumChar c) : NumEnd (c :: t) := by
  intro c' t' he; cases he; exact h

theorem printElems_end {ind : Option (Bytes × Bytes)} (hi : BlankIndent ind) (d n : Nat) (xs : List Doc) : NumEnd (printElems ind d false xs ++ nl ind n ++ [0x5D]) := by
  cases xs with
  | nil => simp only [printElems, List.nil_append]; exact numEnd_blank (nl_blank hi n) (numEnd_cons notNumChar.1)
  | cons x xs => simp only [printElems, Bool.false_eq_true, if_false, List.cons_append, List.nil_append]; exact numEnd_cons notNumChar.2.2

theorem printMems_end {ind : Option (Bytes × Bytes)} (hi : BlankIndent ind) (d n : Nat) (ms : List DMem) : NumEnd (printMems ind d ms ++ nl ind n ++ [0x7D]) := by
  cases ms with
  | nil => simp only [printMems, List.nil_append]; exact numEnd_blank (nl_blank hi n) (numEnd_cons notNumChar.2.1)
  | cons m ms =>
    obtain ⟨c, k, v⟩ := m
    simp only [printMems, List.append_assoc]
    cases c
    · simp only [Bool.false_eq_true, if_false, List.nil_append]
      refine numEnd_blank (nl_blank hi d) (numEnd_cons ?_)
      unfold NumChar Digit; decide
    · exact numEnd_cons notNumChar.2.2

theorem elems_lenient {num : Bytes → Prop} {ind : Option (Bytes × Bytes)} (hi : BlankIndent ind) (d n : Nat) : ∀ (xs : List Doc) (js : List J) (first : Bool), js.length = xs.length →
    (∀ (i : Nat) x j, xs[i]? = some x → js[i]? = some j → LVal num (x.print ind d) j) → LElems num (printElems ind d first xs ++ nl ind n ++ [0x5D]) js
  | [], [], _, _, _ => by unfold printElems; exact .nil _ (sep_of_blank (nl_blank hi n))
  | x :: xs, j :: js, first, hl, h => by
    have ih := elems_lenient hi d n xs js false (by simpa using hl) fun i a b ha hb => h (i + 1) a b (by simpa using ha) (by simpa using hb)
    have := LElems.cons ((if first then [] else [0x2C]) ++ nl ind d) (x.print ind d) _ j js (by
      have := comma_sep (!first) (nl_blank hi d); cases first <;> simpa using this) (h 0 x j rfl rfl) ih (follow_of (printElems_end hi d n xs))
    simpa [printElems] using this
  | _ :: _, [], _, hl, _ => by simp at hl
  | [], _ :: _, _, hl, _ => by simp at hl

theorem mems_lenient {num : Bytes → Prop} {ind : Option (Bytes × Bytes)} (hi : BlankIndent ind) (d n : Nat) : ∀ (ms : List DMem) (es : List Mem), es.length = ms.length →
    (∀ (i : Nat) m e, ms[i]? = some m → es[i]? = some e → LStr (DMem.key m) e.key) →
    (∀ (i : Nat) m e, ms[i]? = some m → es[i]? = some e → LVal num ((DMem.v m).print ind d) e.v) → LMems num (printMems ind d ms ++ nl ind n ++ [0x7D]) es
  | [], [], _, _, _ => by unfold printMems; exact .nil _ (sep_of_blank (nl_blank hi n))
  | ⟨c, k, v⟩ :: ms, ⟨dk, j⟩ :: es, hl, hk, h => by
    have ih := mems_lenient hi d n ms es (by simpa using hl) (fun i a b ha hb => hk (i + 1) a b (by simpa using ha) (by simpa using hb))
      fun i a b ha hb => h (i + 1) a b (by simpa using ha) (by simpa using hb)
    have := LMems.cons ((if c then [0x2C] else []) ++ nl ind d) k [] (if ind.isSome then [0x20] else []) (v.print ind d) _ dk j es (comma_sep c (nl_blank hi d)) (hk 0 _ _ rfl rfl)
      (by intro c hc; cases hc) (by intro c hc; cases h : ind.isSome <;> simp [h] at hc; simp [hc]) (h 0 _ _ rfl rfl) ih (follow_of (printMems_end hi d n ms))
    simpa [printMems] using this
  | _ :: _, [], hl, _, _ => by simp at hl
  | [], _ :: _, hl, _, _ => by simp at hl

theorem docJ_lenient {num : Bytes → Prop} {ind : Option (Bytes × Bytes)} (hi : BlankIndent ind) {d : Doc} {j : J} (h : DocJ num LStr (fun _ => True) d j) :
    ∀ n, LVal num (d.print ind n) j := by
  induction h with
  | null => intro n; exact .null
  | bool b => intro n; cases b; exact .fls; exact .tru
  | num t ht => intro n; exact .num t ht
  | str t d ht => intro n; exact .str _ _ ht
  | arrNil => intro n; exact .arr _ _ (.nil [] (by intro c hc; cases hc))
  | objNil => intro n; exact .obj _ _ (.nil [] (by intro c hc; cases hc))
  | arr xs js hne hl _ ih =>
    intro n
    unfold Doc.print
    exact .arr _ _ (elems_lenient hi (n + 1) n xs js true hl fun i x j hx hj => ih i x j hx hj (n + 1))
  | obj ms es hC hl hk _ ih =>
    intro n
    unfold Doc.print
    exact .obj _ _ (mems_lenient hi (n + 1) n ms es hl hk fun i x j hx hj => ih i x j hx hj (n + 1))

/-! ### contents -/

variable {E : Env} {S : SortFn} {o : Opt} {T : Escaper}

/-- the order in which the members of the object at `l` appear -/
def ordOf (S : SortFn) (o : Opt) (l : List Step) (kvs es : List Ent) : Prop :=
  ∃ p, (o.lessFunc.isSome = true → InfoAt l p) ∧ (o.lessFunc.isSome = false → p = none) ∧ es = sorted S o p kvs

/-- what strings become -/
structure StrOK (T : Escaper) (strP : Bytes → Prop) (str : Bytes → Bytes → Prop) : Prop where
  esc : ∀ s, strP s → str (escText T s) ((runes s).flatMap utf8)
  plain : str [0x4E, 0x61, 0x4E] [0x4E, 0x61, 0x4E] ∧ str [0x2B, 0x49, 0x6E, 0x66] [0x2B, 0x49, 0x6E, 0x66] ∧ str [0x2D, 0x49, 0x6E, 0x66] [0x2D, 0x49, 0x6E, 0x66]
  clean : ∀ s, strP ((runes s).flatMap utf8) → strP s

theorem infoAt_step {l : List Step} {p : Option ParentInfo} {w : V} {s : Step} (h : InfoAt l p) :
    InfoAt (l ++ [s]) (some (newParentInfo w p (stepKey s))) := by
  refine ⟨by simp, fun _ => ⟨w, ?_⟩⟩
  unfold newParentInfo
  by_cases hl : l = []
  · subst hl; rw [h.1 rfl]; rfl
  · obtain ⟨w', rfl⟩ := h.2 hl; simp

theorem shown_cons (o : Opt) (e : Ent) (es : List Ent) : shown o (e :: es) = if isNullV e.v && o.omitNull then shown o es else e :: shown o es := by
  unfold shown
  cases h1 : o.omitNull <;> cases h2 : isNullV e.v <;> simp [h2]

def parOf (o : Opt) (par : Option ParentInfo) (e : Ent) : Option ParentInfo :=
  if o.lessFunc.isSome then some (newParentInfo e.v par (stringKey e.key)) else none

theorem docMems_get {f : Ent → Option ParentInfo → Doc} {par : Option ParentInfo} : ∀ (es : List Ent) (fw : Bool) (i : Nat) (m : DMem),
    (docMems o T par fw (es.map fun e => (e, f e)))[i]? = some m →
    ∃ e, (shown o es)[i]? = some e ∧ DMem.key m = escText T e.key ∧ DMem.v m = f e (parOf o par e)
  | [], fw, i, m, h => by simp [docMems] at h
  | e :: es, fw, i, m, h => by
    rw [shown_cons]
    simp only [List.map_cons, docMems] at h
    split at h
    · rename_i hc; rw [if_pos hc]; exact docMems_get es false i m h
    · rename_i hc; rw [if_neg hc]
      cases i with
      | zero =>
        simp only [List.getElem?_cons_zero, Option.some.injEq] at h
        subst h
        exact ⟨e, rfl, rfl, rfl⟩
      | succ i => exact docMems_get es true i m (by simpa using h)

theorem docMems_length {f : Ent → Option ParentInfo → Doc} {par : Option ParentInfo} : ∀ (es : List Ent) (fw : Bool),
    (docMems o T par fw (es.map fun e => (e, f e))).length = (shown o es).length
  | [], fw => by simp [docMems, shown]
  | e :: es, fw => by
    rw [shown_cons]
    simp only [List.map_cons, docMems]
    split
    · exact docMems_length es false
    · simp [docMems_length es true]

theorem docMems_commas {f : Ent → Option ParentInfo → Doc} {par : Option ParentInfo} : ∀ (es : List Ent), (∀ e ∈ es, (isNullV e.v && o.omitNull) = false) →
    (∀ m ∈ docMems o T par true (es.map fun e => (e, f e)), DMem.comma m = true) ∧ Commas (docMems o T par false (es.map fun e => (e, f e)))
  | [], _ => by simp [docMems, Commas]
  | e :: es, h => by
    have ih := (docMems_commas (f := f) (par := par) es fun x hx => h x (by simp [hx])).1
    simp only [List.map_cons, docMems, h e (by simp), Bool.false_eq_true, if_false, Commas, List.mem_cons, forall_eq_or_imp]
    exact ⟨⟨rfl, ih⟩, rfl, ih⟩

theorem exists_list {α β : Type} {P : Nat → α → β → Prop} : ∀ (xs : List α), (∀ (i : Nat) x, xs[i]? = some x → ∃ j, P i x j) →
    ∃ js : List β, js.length = xs.length ∧ ∀ (i : Nat) x j, xs[i]? = some x → js[i]? = some j → P i x j := by
  intro xs
  induction xs generalizing P with
  | nil => intro _; exact ⟨[], rfl, by simp⟩
  | cons x xs ih =>
    intro h
    obtain ⟨j, hj⟩ := h 0 x rfl
    obtain ⟨js, h1, h2⟩ := ih (P := fun i => P (i + 1)) fun i y hy => h (i + 1) y (by simpa using hy)
    refine ⟨j :: js, by simp [h1], ?_⟩
    intro i y k hy hk
    cases i with
    | zero => simp at hy hk; subst hy hk; exact hj
    | succ i => exact h2 i y k (by simpa using hy) (by simpa using hk)

theorem docElems_get (v : V) : ∀ (xs : List V) (k : Nat) (par : Option ParentInfo) (i : Nat), (docElems E S o T v xs k par)[i]? =
    (xs[i]?).map fun x => doc E S o T x (if o.lessFunc.isSome then some (newParentInfo v par (intKey (k + i))) else none)
  | [], k, par, i => by simp [docElems]
  | x :: xs, k, par, 0 => by simp [docElems]
  | x :: xs, k, par, i + 1 => by simp only [docElems, List.getElem?_cons_succ, docElems_get v xs (k + 1) par i]; congr 1; funext y; rw [show k + 1 + i = k + (i + 1) by omega]

theorem docElems_length (v : V) : ∀ (xs : List V) (k : Nat) (par : Option ParentInfo), (docElems E S o T v xs k par).length = xs.length
  | [], k, par => by simp [docElems]
  | x :: xs, k, par => by simp [docElems, docElems_length v xs (k + 1) par]

instance (r : Nat) : Decidable (Scalar r) := by unfold Scalar; infer_instance

theorem replace_unique {s : Special} {j j' : J ⊕ Err} (h : Replace E o s j) (h' : Replace E o s j') : j = j' := by
  cases h <;> cases h' <;> first | rfl | (exfalso; simp_all; done) | (rename_i h1 _ _ h2; rw [cleaned_unique h1 h2]) | skip
  all_goals (try simp_all)
  all_goals (rename_i h1 _ _ h2; first | exact (cleaned_unique h2 h1) | exact cleaned_unique h1 h2)

/-- the text for a special number -/
theorem spec_docJ {num strP : Bytes → Prop} {str : Bytes → Bytes → Prop} {C : List DMem → Prop} (hs : StrOK T strP str) {s : Special} {j : J}
    (h : Replace E o s (.inl j)) (h1 : ∀ t, j = .num t → num t) (h2 : ∀ d, j = .str d → strP d) : DocJ num str C (.leaf (specText E o T s)) j := by
  have quoted : ∀ s d, Cleaned s d → strP d → DocJ num str C (.leaf (0x22 :: escText T s ++ [0x22])) (.str d) := by
    intro s d hd hp
    have e := cleaned_unique (cleaned_runes s) hd
    subst e
    exact .str _ _ (hs.esc s (hs.clean s hp))
  have plainC : ∀ s : Bytes, ValidUTF8 s → ∀ d, Cleaned s d → d = s := fun s hv d hd => cleaned_valid hv hd
  have vNaN : ValidUTF8 [0x4E, 0x61, 0x4E] := ⟨[0x4E, 0x61, 0x4E], by decide, by decide⟩
  have vInfP : ValidUTF8 [0x2B, 0x49, 0x6E, 0x66] := ⟨[0x2B, 0x49, 0x6E, 0x66], by decide, by decide⟩
  have vInfN : ValidUTF8 [0x2D, 0x49, 0x6E, 0x66] := ⟨[0x2D, 0x49, 0x6E, 0x66], by decide, by decide⟩
  cases h with
  | nanFloat c1 c2 => simp only [specText, c1, c2]; exact .num _ (h1 _ rfl)
  | nanNull c1 => simp only [specText, c1]; exact .null
  | nanStr d c1 c2 =>
    simp only [specText, c1]
    by_cases he : o.nanToString = []
    · rw [if_pos he] at c2 
      have := plainC _ vNaN d c2; subst this
      simp only [he, if_true]; exact .str [0x4E, 0x61, 0x4E] _ hs.plain.1
    · rw [if_neg he] at c2
      simp only [he, if_false]; exact quoted _ d c2 (h2 d rfl)
  | infPFloat c1 c2 => simp only [specText, c1, c2]; exact .num _ (h1 _ rfl)
  | infNFloat c1 c2 => simp only [specText, c1, c2]; exact .num _ (h1 _ rfl)
  | infNull _ c0 c1 => cases s <;> simp only [specText, c1] <;> first | exact absurd rfl c0 | exact .null
  | infPStr d c1 c2 =>
    simp only [specText, c1]
    by_cases he : o.infPos = []
    · rw [if_pos he] at c2 
      have := plainC _ vInfP d c2; subst this
      simp only [he, if_true]; exact .str [0x2B, 0x49, 0x6E, 0x66] _ hs.plain.2.1
    · rw [if_neg he] at c2
      simp only [he, if_false]; exact quoted _ d c2 (h2 d rfl)
  | infNStr d c1 c2 =>
    simp only [specText, c1]
    by_cases he : o.infNeg = [] ∧ o.infPos = []
    · simp only [he.1, he.2] at c2
      have := plainC _ vInfN d c2; subst this
      simp only [he, if_true]; exact .str [0x2D, 0x49, 0x6E, 0x66] _ hs.plain.2.2
    · have c3 : Cleaned (infNegString o) d := c2
      simp only [he, if_false]; exact quoted _ d c3 (h2 d rfl)

/-- Every printable value is written as a document that shows its contents. -/
theorem doc_shows {num strP : Bytes → Prop} {str : Bytes → Bytes → Prop} {C : List DMem → Prop} {CN : V → Prop} (hS : GoodSort S) (hs : StrOK T strP str)
    (hC : ∀ n kvs low, CN (.obj n kvs low) → ∀ (es : List Ent) par (f : Ent → Option ParentInfo → Doc), (∀ e ∈ es, e ∈ kvs) → C (docMems o T par false (es.map fun e => (e, f e))))
    (v : V) (hk : Her KeysNodup v) (hp : Her (Printable E o num strP) v) (hc : Her CN v) (l : List Step) (par : Option ParentInfo)
    (hi : o.lessFunc.isSome = true → InfoAt l par) (hi' : o.lessFunc.isSome = false → par = none) :
    ∃ j, Shows E o (ordOf S o) l v j ∧ DocJ num str C (doc E S o T v par) j := by
  induction v using kid_ind generalizing l par with
  | step v ih =>
    have hp0 := her_self hp
    have ihk : ∀ c, Kid v c → ∀ (s : Step) (w : V), ∃ j, Shows E o (ordOf S o) (l ++ [s]) c j ∧
        DocJ num str C (doc E S o T c (if o.lessFunc.isSome then some (newParentInfo w par (stepKey s)) else none)) j := by
      intro c hcc s w
      refine ih c hcc (her_kid hk hk hcc) (her_kid hk hp hcc) (her_kid hk hc hcc) (l ++ [s]) _ ?_ ?_
      · intro h; rw [if_pos h]; exact infoAt_step (hi h)
      · intro h; rw [h]; rfl
    cases v with
    | nilp => exact absurd hp0 (by simp [Printable])
    | notExist => exact absurd hp0 (by simp [Printable])
    | null => exact ⟨.null, .null l, .null⟩
    | bool b => exact ⟨.bool b, .bool l b, .bool b⟩
    | str s => exact ⟨.str _, .str l s _ (cleaned_runes s), .str _ _ (hs.esc s hp0)⟩
    | num src n =>
      unfold doc numText
      cases hsp : special src n with
      | none => exact ⟨.num src, .num l src n hsp, .num _ (hp0.1 hsp)⟩
      | some s =>
        obtain ⟨j, h1, h2, h3⟩ := hp0.2 s hsp
        exact ⟨j, .spec l src n s j hsp h1, spec_docJ hs h1 h2 h3⟩
    | arr xs =>
      cases xs with
      | nil => exact ⟨.arr [], .arr l [] [] rfl (by simp), by simp only [doc, List.length_nil, if_true]; exact .arrNil⟩
      | cons x xs =>
        obtain ⟨js, h1, h2⟩ := exists_list (P := fun i y j => Shows E o (ordOf S o) (l ++ [.idx i]) y j ∧
          DocJ num str C (doc E S o T y (if o.lessFunc.isSome then some (newParentInfo (.arr (x :: xs)) par (intKey i)) else none)) j) (x :: xs)
          (fun i y hy => ihk y (List.mem_of_getElem? hy) (.idx i) (.arr (x :: xs)))
        refine ⟨.arr js, .arr l _ js h1 (fun i y j hy hj => (h2 i y j hy hj).1), ?_⟩
        unfold doc
        rw [if_neg (by simp)]
        refine .arr _ js (by intro h; have := congrArg List.length h; rw [docElems_length] at this; simp at this) (by rw [docElems_length, h1]) ?_
        intro i d j hd hj
        rw [docElems_get] at hd
        obtain ⟨y, hy, rfl⟩ := Option.map_eq_some_iff.1 hd
        have := (h2 i y j hy hj).2
        simpa using this
    | obj n kvs low =>
      by_cases h0 : kvs = []
      · subst h0
        have hso : sorted S o par [] = [] := List.eq_nil_iff_forall_not_mem.2 fun e he => by have := sorted_mem he; simp at this
        refine ⟨.obj [], .obj l n [] low [] [] (.refl _) ⟨par, hi, hi', hso.symm⟩ (by simp [shown]) (by simp) (by simp), ?_⟩
        simp only [doc, List.length_nil, if_true]; exact .objNil
      · have hsub : ∀ e ∈ shown o (sorted S o par kvs), e ∈ kvs := by
          intro e he
          refine sorted_mem (S := S) (o := o) (par := par) ?_
          unfold shown at he
          split at he
          · exact (List.mem_filter.1 he).1
          · exact he
        obtain ⟨js, h1, h2⟩ := exists_list (P := fun _ (e : Ent) (m : Mem) => m.key = (runes e.key).flatMap utf8 ∧ Shows E o (ordOf S o) (l ++ [.key e.key]) e.v m.v ∧
          DocJ num str C (doc E S o T e.v (parOf o par e)) m.v) (shown o (sorted S o par kvs)) (by
            intro i e he
            obtain ⟨j, hj⟩ := ihk e.v ⟨e, hsub e (List.mem_of_getElem? he), rfl⟩ (.key e.key) e.v
            exact ⟨⟨_, j⟩, rfl, hj⟩)
        refine ⟨.obj js, .obj l n kvs low (sorted S o par kvs) js (sorted_perm hS par kvs) ⟨par, hi, hi', rfl⟩ h1 ?_ (fun i e m he hm => (h2 i e m he hm).2.1), ?_⟩
        · intro i e m he hm
          rw [(h2 i e m he hm).1]; exact cleaned_runes _
        rw [doc_obj _ _ _ _ h0]
        refine .obj _ js (hC n kvs low (her_self hc) _ _ _ fun e he => sorted_mem he) (by rw [docMems_length, h1]) ?_ ?_
        · intro i m e hm he
          obtain ⟨x, hx, hk, -⟩ := docMems_get _ _ _ _ hm
          rw [hk, (h2 i x e hx he).1]
          exact hs.esc _ (hp0 x (hsub x (List.mem_of_getElem? hx)))
        · intro i m e hm he
          obtain ⟨x, hx, -, hv⟩ := docMems_get _ _ _ _ hm
          rw [hv]
          exact (h2 i x e hx he).2.2

/-! the two kinds of string literals -/

theorem strOK_lenient (hT : ∀ n, n < 128 → EscOK n (T.ascii n)) : StrOK T (fun _ => True) LStr where
  esc s _ := escText_lenient hT s
  plain := by
    refine ⟨?_, ?_, ?_⟩ <;> (repeat (refine .ascii _ _ _ (by decide) (by decide) (by decide) ?_)) <;> exact .nil
  clean _ _ := trivial

theorem mem_runes_vt {s : Bytes} {rs : List Nat} (h : Decodes s rs) (hv : 0xB ∈ rs) : (0xB : UInt8) ∈ s := by
  induction h with
  | nil => cases hv
  | char r t rs hr _ ih =>
    rcases List.mem_cons.1 hv with rfl | hv
    · exact List.mem_append_left _ (by decide)
    · exact List.mem_append_right _ (ih hv)
  | bad b t rs _ _ ih =>
    rcases List.mem_cons.1 hv with h | hv
    · exact absurd h (by decide)
    · simp [ih hv]

/-- an ASCII byte of a UTF-8 sequence is the code point -/
theorem utf8_ascii_mem {r : Nat} (hr : Scalar r) {c : UInt8} (hc : c.toNat < 0x80) (h : c ∈ utf8 r) : r = c.toNat := by
  unfold Scalar at hr
  unfold utf8 at h
  split at h
  · simp only [List.mem_singleton] at h; rw [h, toNat_ofNat (by omega)]
  split at h
  · simp only [List.mem_cons, List.not_mem_nil, or_false] at h
    rcases h with rfl | rfl <;> rw [toNat_ofNat (by omega)] at hc <;> omega
  split at h
  · simp only [List.mem_cons, List.not_mem_nil, or_false] at h
    rcases h with rfl | rfl | rfl <;> rw [toNat_ofNat (by omega)] at hc <;> omega
  · simp only [List.mem_cons, List.not_mem_nil, or_false] at h
    rcases h with rfl | rfl | rfl | rfl <;> rw [toNat_ofNat (by omega)] at hc <;> omega

theorem vt_mem_runes {s : Bytes} {rs : List Nat} (h : Decodes s rs) (hv : (0xB : UInt8) ∈ s) : 0xB ∈ rs := by
  induction h with
  | nil => cases hv
  | char r t rs hr _ ih =>
    rcases List.mem_append.1 hv with h | h
    · have := utf8_ascii_mem hr (by decide) h; simp [this]
    · simp [ih h]
  | bad b t rs hb _ ih =>
    rcases List.mem_cons.1 hv with rfl | h
    · exact absurd rfl (hb 0xB t (.inl (by decide)))
    · simp [ih h]

theorem strOK_strict (hT : ∀ n, n < 128 → EscOK n (T.ascii n)) : StrOK T (fun s => 0xB ∉ s) StrBody where
  esc s hs := escText_body hT s fun h => hs (mem_runes_vt (Decodes_runes s) h)
  plain := by
    refine ⟨?_, ?_, ?_⟩
    · exact .char 0x4E _ _ (by decide) (by decide) (by decide) (by decide) (.char 0x61 _ _ (by decide) (by decide) (by decide) (by decide) (.char 0x4E [] [] (by decide) (by decide) (by decide) (by decide) .nil))
    · exact .char 0x2B _ _ (by decide) (by decide) (by decide) (by decide) (.char 0x49 _ _ (by decide) (by decide) (by decide) (by decide) (.char 0x6E _ _ (by decide) (by decide) (by decide) (by decide) (.char 0x66 [] [] (by decide) (by decide) (by decide) (by decide) .nil)))
    · exact .char 0x2D _ _ (by decide) (by decide) (by decide) (by decide) (.char 0x49 _ _ (by decide) (by decide) (by decide) (by decide) (.char 0x6E _ _ (by decide) (by decide) (by decide) (by decide) (.char 0x66 [] [] (by decide) (by decide) (by decide) (by decide) .nil)))
  clean s hs hm := hs (List.mem_flatMap.2 ⟨0xB, vt_mem_runes (Decodes_runes s) hm, by decide⟩)

end JV
