import Verif.Proofs.ImportTotal
import Verif.Proofs.ExportImport
import Verif.Spec.GoFate
/-! Import meets the parts of its argument in the order of `looked`, and the first bad one decides. -/
namespace JV
open Spec

variable {E : Env} {S : SortFn} {F : FloatText}

def wayOf : RO → Way
  | .no => .open
  | .embed => .inner
  | .sticky => .hidden

/-- what the parts looked at make of the whole; `P` is what is known of a result -/
def Fate (E : Env) {α : Type} (P : α → Prop) (r : R α) (l : List (Way × GoVal)) : Prop :=
  (∃ v, r = .ok v ∧ P v ∧ ∀ q ∈ l, ¬ Forbidden q ∧ ¬ Refused E q) ∨
  (∃ e, r = .err e ∧ FirstBad E (Refused E) l) ∨
  (r = .panic ∧ FirstBad E Forbidden l)

theorem firstBad_append {P : Way × GoVal → Prop} {l l' : List (Way × GoVal)} (h : FirstBad E P l) : FirstBad E P (l ++ l') := by
  obtain ⟨l1, p, l2, rfl, h1, h2⟩ := h
  exact ⟨l1, p, l2 ++ l', by simp, h1, h2⟩

theorem firstBad_after {P : Way × GoVal → Prop} {l l' : List (Way × GoVal)} (h : FirstBad E P l') (hl : ∀ q ∈ l, ¬ Forbidden q ∧ ¬ Refused E q) :
    FirstBad E P (l ++ l') := by
  obtain ⟨l1, p, l2, rfl, h1, h2⟩ := h
  refine ⟨l ++ l1, p, l2, by simp, fun q hq => ?_, h2⟩
  rcases List.mem_append.1 hq with hq | hq
  · exact hl q hq
  · exact h1 q hq

theorem fate_ok {α : Type} {P : α → Prop} {v : α} (h : P v) : Fate E P (.ok v) [] := .inl ⟨v, rfl, h, by simp⟩

theorem fate_leaf {v : V} {w : Way} {x : GoVal} (h1 : ¬ Forbidden (w, x)) (h2 : ¬ Refused E (w, x)) : Fate E (fun _ => True) (.ok v) [(w, x)] :=
  .inl ⟨v, rfl, trivial, by simp [h1, h2]⟩

theorem fate_err {α : Type} {P : α → Prop} {e : Err} {w : Way} {x : GoVal} (h : Refused E (w, x)) : Fate E P (.err e) [(w, x)] :=
  .inr (.inl ⟨e, rfl, [], (w, x), [], rfl, by simp, h⟩)

theorem fate_panic {α : Type} {P : α → Prop} {w : Way} {x : GoVal} (h : Forbidden (w, x)) : Fate E P .panic [(w, x)] :=
  .inr (.inr ⟨rfl, [], (w, x), [], rfl, by simp, h⟩)

theorem fieldName_eq (name tag : Bytes) (ex : Ext) : (readFieldTag E name tag ex).1 = fieldName E name tag := by
  unfold readFieldTag fieldName
  by_cases h : tag = []
  · simp [h]
  · simp only [h, if_false, split_head, false_or]

theorem anonName_eq (name tag : Bytes) (ex : Ext) : (readAnonymousFieldTag E name tag ex).1 = fieldName E name tag := by
  rw [← fieldName_eq name tag ex]; rfl

theorem isNilPtr_eq (x : GoVal) : isNilPtr x = nilPointer x := by cases x <;> first | rfl | (rename_i v; cases v <;> rfl)

theorem wayOf_elem (ro : RO) : wayOf ro.elem = (wayOf ro).elem := by cases ro <;> rfl
theorem wayOf_embedded (ro : RO) (ex : Bool) : wayOf (ro.field true ex) = (wayOf ro).embedded ex := by cases ro <;> cases ex <;> rfl
theorem wayOf_field (ro : RO) (ex : Bool) : ro.field false ex ≠ .no ↔ ex = false ∨ wayOf ro = .hidden := by cases ro <;> cases ex <;> decide
theorem wayOf_open {ro : RO} : ro = .no ↔ wayOf ro = .open := by cases ro <;> decide

/-- an object as `NewObject` and `Set` leave it -/
def Obj (v : V) : Prop := ∃ n kvs, v = .obj n kvs none

theorem fate_setKey {v c : V} {k : Bytes} (h : Obj v) : ∃ w, mustSetKey E v c k = .ok w ∧ Obj w := by
  obtain ⟨n, kvs, rfl⟩ := h
  cases hu : c.uninit with
  | true => exact ⟨.obj n kvs none, by simp [mustSetKey, set, setAt, setAt1, hu], n, kvs, rfl⟩
  | false =>
    refine ⟨.obj (n + 1) (assign ⟨k, n + 1, c⟩ kvs) none, ?_, n + 1, _, rfl⟩
    have hu' : (V.obj n kvs none).uninit = false := rfl
    simp [mustSetKey, set, setAt, setAt1, hu', hu, atLastParam, anyToString, setKey, addCaseless]

theorem fate_setAll : ∀ {l : List (Bytes × V)} {v : V}, Obj v → ∃ w, mustSetAll E v l = .ok w ∧ Obj w
  | [], v, h => ⟨v, rfl, h⟩
  | (k, c) :: l, v, h => by
    obtain ⟨w, hw, ho⟩ := fate_setKey (E := E) (k := k) (c := c) h
    obtain ⟨w', hw', ho'⟩ := fate_setAll (l := l) ho
    exact ⟨w', by simp only [mustSetAll, hw]; exact hw', ho'⟩

theorem fate_anon (name : Bytes) (ex : Ext) (c : V) : ∃ l, anonMembers S name ex c = .ok l := by
  cases c with
  | obj n kvs low => exact ⟨_, by simp only [anonMembers, membersBySet, rangeObjectsBySet, isObject, onV, visit_all]; rfl⟩
  | nilp => exact ⟨_, rfl⟩
  | notExist => exact ⟨_, rfl⟩
  | _ => simp only [anonMembers]; split <;> exact ⟨_, rfl⟩

theorem marsh_fate (ex : Ext) (em : Bool) (out : Option Bytes) : Fate E (fun _ => True) (parseJSONMarshaler E ex out) [(.open, .marsh em out)] := by
  cases out with
  | none => exact fate_err trivial
  | some b =>
    obtain ⟨v, e, h, -⟩ := C01_unmarshal_total E b
    cases e with
    | some e =>
      simp only [parseJSONMarshaler, h]
      exact fate_err (by intro b' v' h'; rw [h] at h'; cases h')
    | none =>
      simp only [parseJSONMarshaler, h]
      exact fate_leaf (fun h => h.1 rfl) (fun h' => h' _ _ h)

mutual
theorem fate_val : ∀ (x : GoVal) (ex : Ext) (ro : RO), Fate E (fun _ => True) (importVal E S F ex ro x) (looked E (wayOf ro) x)
  | .invalid => fun ex ro => fate_leaf (by simp [Forbidden, needsInterface]) id
  | .bool _ => fun ex ro => fate_leaf (by simp [Forbidden, needsInterface]) id
  | .int _ => fun ex ro => fate_leaf (by simp [Forbidden, needsInterface]) id
  | .uint _ => fun ex ro => fate_leaf (by simp [Forbidden, needsInterface]) id
  | .flt _ _ => fun ex ro => fate_leaf (by simp [Forbidden, needsInterface]) id
  | .str _ => fun ex ro => fate_leaf (by simp [Forbidden, needsInterface]) id
  | .nilPtr _ => fun ex ro => fate_leaf (by simp [Forbidden, needsInterface]) id
  | .nilSlice => fun ex ro => fate_leaf (by simp [Forbidden, needsInterface]) id
  | .nilMap => fun ex ro => fate_leaf (by simp [Forbidden, needsInterface]) id
  | .badMap => fun ex ro => fate_err trivial
  | .unsupported => fun ex ro => fate_err trivial
  | .bytes true b => by
    intro ex ro
    simp only [importVal, looked]
    split <;> exact fate_leaf (by simp [Forbidden, needsInterface]) id
  | .bytes false b => by
    intro ex ro
    simp only [importVal, looked]
    by_cases h : ro = .no
    · rw [if_pos h]
      exact fate_leaf (fun h' => h'.1 (wayOf_open.1 h)) id
    · rw [if_neg h]
      exact fate_panic ⟨fun h' => h (wayOf_open.2 h'), rfl⟩
  | .jv v => by
    intro ex ro
    simp only [importVal, looked]
    by_cases h : ro = .no
    · rw [if_pos h]
      exact fate_leaf (fun h' => h'.1 (wayOf_open.1 h)) id
    · rw [if_neg h]
      exact fate_panic ⟨fun h' => h (wayOf_open.2 h'), rfl⟩
  | .nilMarsh => by
    intro ex ro
    simp only [importVal, looked]
    by_cases h : ro = .no
    · rw [if_pos h]
      exact fate_leaf (fun h' => h'.1 (wayOf_open.1 h)) id
    · rw [if_neg h]
      exact fate_panic ⟨fun h' => h (wayOf_open.2 h'), rfl⟩
  | .marsh em out => by
    intro ex ro
    simp only [importVal, looked]
    by_cases h : ro = .no
    · subst h
      exact marsh_fate ex em out
    · rw [if_neg h]
      exact fate_panic ⟨fun h' => h (wayOf_open.2 h'), rfl⟩
  | .text em out => by
    intro ex ro
    simp only [importVal, looked]
    by_cases h : ro = .no
    · subst h
      cases out with
      | none => exact fate_err trivial
      | some b => exact fate_leaf (fun h' => h'.1 rfl) id
    · rw [if_neg h]
      exact fate_panic ⟨fun h' => h (wayOf_open.2 h'), rfl⟩
  | .arr xs => by
    intro ex ro
    simp only [importVal, looked, ← wayOf_elem]
    exact fate_list xs _ _ []
  | .slice xs => by
    intro ex ro
    simp only [importVal, looked, ← wayOf_elem]
    cases xs with
    | nil => exact fate_ok trivial
    | cons x xs => exact fate_list (x :: xs) _ _ []
  | .map kvs => by
    intro ex ro
    simp only [importVal, looked, ← wayOf_elem]
    cases kvs with
    | nil => exact fate_ok trivial
    | cons x xs => exact fate_pairs (x :: xs) _ _ _ ⟨0, [], rfl⟩
  | .ptr x => fun ex ro => fate_val x ex ro
  | .iface x => by
    intro ex ro
    simp only [importVal, looked, ← wayOf_elem]
    exact fate_val x ex _
  | .struct fs => fun ex ro => fate_fields fs ex ro _ ⟨0, [], rfl⟩
termination_by structural x => x
theorem fate_list : ∀ (xs : List GoVal) (ex : Ext) (ro : RO) (ys : List V), Fate E (fun _ => True) (importList E S F ex ro (.arr ys) xs) (lookedL E (wayOf ro) xs)
  | [] => fun ex ro ys => fate_ok trivial
  | x :: xs => by
    intro ex ro ys
    simp only [importList, lookedL]
    rcases fate_val x ex ro with ⟨v, h1, -, h2⟩ | ⟨e, h1, h2⟩ | ⟨h1, h2⟩
    · rw [h1]
      simp only [mustAppend_arr]
      rcases fate_list xs ex ro (ys ++ [v]) with ⟨w, h3, -, h4⟩ | ⟨e, h3, h4⟩ | ⟨h3, h4⟩
      · exact .inl ⟨w, h3, trivial, fun q hq => (List.mem_append.1 hq).elim (h2 q) (h4 q)⟩
      · exact .inr (.inl ⟨e, h3, firstBad_after h4 h2⟩)
      · exact .inr (.inr ⟨h3, firstBad_after h4 h2⟩)
    · rw [h1]
      exact .inr (.inl ⟨e, rfl, firstBad_append h2⟩)
    · rw [h1]
      exact .inr (.inr ⟨rfl, firstBad_append h2⟩)
termination_by structural xs => xs
theorem fate_pairs : ∀ (ps : List GoPair) (ex : Ext) (ro : RO) (res : V), Obj res → Fate E (fun _ => True) (importPairs E S F ex ro res ps) (lookedP E (wayOf ro) ps)
  | [] => fun ex ro res _ => fate_ok trivial
  | p :: ps => by
    intro ex ro res ho
    simp only [importPairs, lookedP]
    rcases fate_pair p ex ro with ⟨⟨k, v⟩, h1, -, h2⟩ | ⟨e, h1, h2⟩ | ⟨h1, h2⟩
    · rw [h1]
      obtain ⟨w, hw, ho'⟩ := fate_setKey (E := E) (c := v) (k := k) ho
      simp only [hw]
      rcases fate_pairs ps ex ro w ho' with ⟨w, h3, -, h4⟩ | ⟨e, h3, h4⟩ | ⟨h3, h4⟩
      · exact .inl ⟨w, h3, trivial, fun q hq => (List.mem_append.1 hq).elim (h2 q) (h4 q)⟩
      · exact .inr (.inl ⟨e, h3, firstBad_after h4 h2⟩)
      · exact .inr (.inr ⟨h3, firstBad_after h4 h2⟩)
    · rw [h1]
      exact .inr (.inl ⟨e, rfl, firstBad_append h2⟩)
    · rw [h1]
      exact .inr (.inr ⟨rfl, firstBad_append h2⟩)
termination_by structural ps => ps
theorem fate_pair : ∀ (p : GoPair) (ex : Ext) (ro : RO), Fate E (fun _ => True) (importPair E S F ex ro p) (lookedPair E (wayOf ro) p)
  | .mk k x => by
    intro ex ro
    simp only [importPair, lookedPair]
    rcases fate_val x ex ro with ⟨v, h1, -, h2⟩ | ⟨e, h1, h2⟩ | ⟨h1, h2⟩
    · exact .inl ⟨(k.text, v), by rw [h1]; rfl, trivial, h2⟩
    · exact .inr (.inl ⟨e, by rw [h1]; rfl, h2⟩)
    · exact .inr (.inr ⟨by rw [h1]; rfl, h2⟩)
termination_by structural p => p
theorem fate_fields : ∀ (fs : List GoField) (ex : Ext) (ro : RO) (res : V), Obj res → Fate E (fun _ => True) (importFields E S F ex ro res fs) (lookedFs E (wayOf ro) fs)
  | [] => fun ex ro res _ => fate_ok trivial
  | f :: fs => by
    intro ex ro res ho
    simp only [importFields, lookedFs]
    rcases fate_field f ex ro with ⟨l, h1, -, h2⟩ | ⟨e, h1, h2⟩ | ⟨h1, h2⟩
    · rw [h1]
      obtain ⟨w, hw, ho'⟩ := fate_setAll (E := E) (l := l) ho
      simp only [hw]
      rcases fate_fields fs ex ro w ho' with ⟨w, h3, -, h4⟩ | ⟨e, h3, h4⟩ | ⟨h3, h4⟩
      · exact .inl ⟨w, h3, trivial, fun q hq => (List.mem_append.1 hq).elim (h2 q) (h4 q)⟩
      · exact .inr (.inl ⟨e, h3, firstBad_after h4 h2⟩)
      · exact .inr (.inr ⟨h3, firstBad_after h4 h2⟩)
    · rw [h1]
      exact .inr (.inl ⟨e, rfl, firstBad_append h2⟩)
    · rw [h1]
      exact .inr (.inr ⟨rfl, firstBad_append h2⟩)
termination_by structural fs => fs
theorem fate_field : ∀ (f : GoField) (ex : Ext) (ro : RO), Fate E (fun _ => True) (importField E S F ex ro f) (lookedF E (wayOf ro) f)
  | .mk name tag true exported x => by
    intro ex ro
    simp only [importField, lookedF, anonName_eq, isNilPtr_eq, ← wayOf_embedded]
    by_cases hd : fieldName E name tag = [0x2D]
    · rw [if_pos hd, if_pos (.inl hd)]; exact fate_ok trivial
    · rw [if_neg hd]
      by_cases hn : nilPointer x = true
      · rw [if_pos hn, if_pos (show fieldName E name tag = [0x2D] ∨ nilPointer x = true from .inr hn)]
        split <;> exact fate_ok trivial
      · rw [if_neg hn, if_neg (by simp [hd, hn])]
        rcases fate_val x (readAnonymousFieldTag E name tag ex).2 (ro.field true exported) with ⟨v, h1, -, h2⟩ | ⟨e, h1, h2⟩ | ⟨h1, h2⟩
        · obtain ⟨l, hl⟩ := fate_anon (S := S) (fieldName E name tag) (readAnonymousFieldTag E name tag ex).2 v
          exact .inl ⟨l, by rw [h1]; exact hl, trivial, h2⟩
        · exact .inr (.inl ⟨e, by rw [h1]; rfl, h2⟩)
        · exact .inr (.inr ⟨by rw [h1]; rfl, h2⟩)
  | .mk name tag false exported x => by
    intro ex ro
    simp only [importField, lookedF, fieldName_eq]
    by_cases hr : ro.field false exported ≠ .no
    · rw [if_pos hr, if_pos ?_]
      · exact fate_ok trivial
      · rcases (wayOf_field ro exported).1 hr with h | h
        · exact .inl h
        · exact .inr (.inl h)
    · rw [if_neg hr]
      by_cases hd : fieldName E name tag = [0x2D]
      · rw [if_pos hd, if_pos (.inr (.inr hd))]; exact fate_ok trivial
      · have hr' := fun h => hr ((wayOf_field ro exported).2 h)
        rw [if_neg hd, if_neg (fun h => h.elim (fun h => hr' (.inl h)) fun h => h.elim (fun h => hr' (.inr h)) hd)]
        have he : ro.field false exported = .no := Classical.not_not.1 hr
        rw [he]
        rcases fate_val x (readFieldTag E name tag ex).2 .no with ⟨v, h1, -, h2⟩ | ⟨e, h1, h2⟩ | ⟨h1, h2⟩
        · exact .inl ⟨_, by rw [h1]; rfl, trivial, h2⟩
        · exact .inr (.inl ⟨e, by rw [h1]; rfl, h2⟩)
        · exact .inr (.inr ⟨by rw [h1]; rfl, h2⟩)
termination_by structural f => f
end

theorem list_arr : ∀ (xs : List GoVal) (ex : Ext) (ro : RO) (ys : List V) (w : V), importList E S F ex ro (.arr ys) xs = .ok w → w ≠ .nilp
  | [], _, _, ys, w, h => by simp only [importList] at h; cases h; simp
  | x :: xs, ex, ro, ys, w, h => by
    simp only [importList] at h
    cases h1 : importVal E S F ex ro x with
    | ok c =>
      simp only [h1, mustAppend_arr] at h
      exact list_arr xs ex ro _ w h
    | err e => rw [h1] at h; cases h
    | panic => rw [h1] at h; cases h
    | diverge => rw [h1] at h; cases h

theorem pairs_obj : ∀ (ps : List GoPair) (ex : Ext) (ro : RO) (res w : V), Obj res → importPairs E S F ex ro res ps = .ok w → w ≠ .nilp
  | [], _, _, res, w, ⟨n, kvs, hr⟩, h => by simp only [importPairs] at h; cases h; simp [hr]
  | p :: ps, ex, ro, res, w, hr, h => by
    simp only [importPairs] at h
    cases h1 : importPair E S F ex ro p with
    | ok kc =>
      obtain ⟨k, c⟩ := kc
      obtain ⟨w', hw, ho⟩ := fate_setKey (E := E) (c := c) (k := k) hr
      simp only [h1, hw] at h
      exact pairs_obj ps ex ro w' w ho h
    | err e => rw [h1] at h; cases h
    | panic => rw [h1] at h; cases h
    | diverge => rw [h1] at h; cases h

theorem fields_obj : ∀ (fs : List GoField) (ex : Ext) (ro : RO) (res w : V), Obj res → importFields E S F ex ro res fs = .ok w → w ≠ .nilp
  | [], _, _, res, w, ⟨n, kvs, hr⟩, h => by simp only [importFields] at h; cases h; simp [hr]
  | f :: fs, ex, ro, res, w, hr, h => by
    simp only [importFields] at h
    cases h1 : importField E S F ex ro f with
    | ok l =>
      obtain ⟨w', hw, ho⟩ := fate_setAll (E := E) (l := l) hr
      simp only [h1, hw] at h
      exact fields_obj fs ex ro w' w ho h
    | err e => rw [h1] at h; cases h
    | panic => rw [h1] at h; cases h
    | diverge => rw [h1] at h; cases h

theorem nil_val (x : GoVal) (ex : Ext) (ho : ex.omit = false) : importVal E S F ex .no x = .ok .nilp ↔ bare x = .nilMarsh ∨ bare x = .jv .nilp := by
  cases x with
  | ptr x => simp only [importVal, bare]; exact nil_val x ex ho
  | iface x => simp only [importVal, bare, RO.elem]; exact nil_val x ex ho
  | arr xs =>
    simp only [importVal, bare, reduceCtorEq, or_self, iff_false]
    exact fun h => list_arr xs _ _ [] _ h rfl
  | slice xs =>
    simp only [importVal, bare, reduceCtorEq, or_self, iff_false]
    split
    · simp [ho, newArray]
    · exact fun h => list_arr xs _ _ [] _ h rfl
  | map kvs =>
    simp only [importVal, bare, reduceCtorEq, or_self, iff_false]
    split
    · simp [ho, newObject]
    · exact fun h => pairs_obj kvs _ _ _ _ ⟨0, [], rfl⟩ h rfl
  | struct fs =>
    simp only [importVal, bare, reduceCtorEq, or_self, iff_false]
    exact fun h => fields_obj fs _ _ _ _ ⟨0, [], rfl⟩ h rfl
  | jv v =>
    simp only [importVal, bare, if_true, reduceCtorEq, false_or, R.ok.injEq, GoVal.jv.injEq]
    cases v <;> simp [parseDeepCopier, deepCopy]
  | nilMarsh => simp [importVal, bare]
  | marsh em out =>
    simp only [importVal, bare, if_true, reduceCtorEq, or_self, iff_false]
    intro h
    rcases marshaler_out (E := E) (ex := ex) (a := true) (fun _ => ho) out with ⟨e, h'⟩ | ⟨v, h1, h2, -⟩
    · rw [h'] at h; cases h
    · rw [h1] at h; cases h; exact h2 rfl rfl
  | text em out =>
    simp only [importVal, bare, if_true, reduceCtorEq, or_self, iff_false]
    cases out <;> simp [ho]
  | bytes n b =>
    cases n <;> simp only [importVal, bare, if_true, reduceCtorEq, or_self, iff_false]
    · simp [ho, newBytes]
    · split <;> simp [ho, newArray]
  | int i => simp only [importVal, bare, reduceCtorEq, or_self, iff_false, ho]; simp; split <;> simp [newInt64]
  | uint i => simp only [importVal, bare, reduceCtorEq, or_self, iff_false, ho]; simp; split <;> simp [newUint64]
  | flt w f => simp only [importVal, bare, reduceCtorEq, or_self, iff_false, ho]; simp; split <;> simp [newFloat, newFloat64f]
  | bool b => simp only [importVal, bare, reduceCtorEq, or_self, iff_false, ho]; simp; split <;> simp
  | _ => simp [importVal, bare, ho, newArray]

theorem forbidden_not_refused {p : Way × GoVal} (h : Forbidden p) : ¬ Refused E p := by
  obtain ⟨w, x⟩ := p
  obtain ⟨h1, h2⟩ := h
  cases w <;> cases x <;> simp_all [Refused, needsInterface]

/-- the first bad part is of one kind only -/
theorem firstBad_unique {l : List (Way × GoVal)} (h1 : FirstBad E (Refused E) l) (h2 : FirstBad E Forbidden l) : False := by
  obtain ⟨a, p, b, rfl, ha, hp⟩ := h1
  obtain ⟨a', p', b', he, ha', hp'⟩ := h2
  induction a generalizing a' with
  | nil =>
    cases a' with
    | nil => cases he; exact forbidden_not_refused hp' hp
    | cons x xs => cases he; exact (ha' p (by simp)).2 hp
  | cons x xs ih =>
    cases a' with
    | nil => cases he; exact (ha p' (by simp)).1 hp'
    | cons y ys =>
      simp only [List.cons_append, List.cons.injEq] at he
      exact ih (fun q hq => ha q (by simp [hq])) ys he.2 (fun q hq => ha' q (by simp [hq]))

theorem firstBad_not_all {P : Way × GoVal → Prop} {l : List (Way × GoVal)} (h : FirstBad E P l) (hP : ∀ p, P p → Forbidden p ∨ Refused E p)
    (hl : ∀ q ∈ l, ¬ Forbidden q ∧ ¬ Refused E q) : False := by
  obtain ⟨a, p, b, rfl, -, hp⟩ := h
  have := hl p (by simp)
  exact (hP p hp).elim this.1 this.2

end JV
