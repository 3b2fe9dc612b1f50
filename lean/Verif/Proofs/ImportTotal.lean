import Verif.Proofs.Import
import Verif.Spec.GoSane
/-! Import does not panic, and its result contains no nil. -/
namespace JV
open Spec

variable {E : Env} {S : SortFn} {F : FloatText}

/-- usable without a panic: no nil anywhere, objects are maps -/
def Clean (v : V) : Prop := NoNil v ∧ Her KeysNodup v

/-- an object of clean members -/
def CleanObj (v : V) : Prop := ∃ n kvs, v = .obj n kvs none ∧ (keys kvs).Nodup ∧ ∀ e ∈ kvs, Clean e.v

theorem clean_kids {v : V} (h : KeysNodup v) (h1 : v ≠ .nilp) (hk : ∀ c, Kid v c → Clean c) : Clean v :=
  ⟨noNil_her (her_of_kids h1 fun c hc l d hd h' => (hk c hc).1 l (h' ▸ hd)), her_of_kids h fun c hc => (hk c hc).2⟩

theorem clean_leaf {v : V} (hs : IsScalar v) (h1 : v ≠ .nilp) : Clean v :=
  clean_kids (by cases v <;> first | trivial | exact hs.elim) h1 fun c hc => by cases v <;> first | exact hs.elim | exact (hc : False).elim

theorem clean_notExist : Clean .notExist := clean_kids trivial (by simp) (fun c hc => (hc : False).elim)

theorem cleanObj_clean {v : V} (h : CleanObj v) : Clean v := by
  obtain ⟨n, kvs, rfl, hn, hc⟩ := h
  refine clean_kids hn (by simp) ?_
  rintro c ⟨e, he, rfl⟩
  exact hc e he

theorem clean_newArray : Clean newArray := clean_kids trivial (by simp [newArray]) fun c hc => absurd (show c ∈ ([] : List V) from hc) List.not_mem_nil

theorem cleanObj_ne {v : V} (h : CleanObj v) : v ≠ .nilp := by
  obtain ⟨n, kvs, rfl, -⟩ := h; simp

theorem cleanObj_new : CleanObj newObject := ⟨0, [], rfl, by simp, by simp⟩

theorem mustSetKey_clean {v c : V} {k : Bytes} (h : CleanObj v) (hc : c ≠ .nilp → Clean c) : ∃ w, mustSetKey E v c k = .ok w ∧ CleanObj w := by
  obtain ⟨n, kvs, rfl, hn, hk⟩ := h
  cases hu : c.uninit with
  | true =>
    exact ⟨.obj n kvs none, by simp [mustSetKey, set, setAt, setAt1, hu], n, kvs, rfl, hn, hk⟩
  | false =>
    have hcl : Clean c := hc (by rintro rfl; simp [V.uninit] at hu)
    refine ⟨.obj (n + 1) (assign ⟨k, n + 1, c⟩ kvs) none, ?_, n + 1, _, rfl, nodup_assign hn, ?_⟩
    · have hu' : (V.obj n kvs none).uninit = false := rfl
      simp [mustSetKey, set, setAt, setAt1, hu', hu, atLastParam, anyToString, setKey, addCaseless]
    · intro e he
      rcases mem_assign he with rfl | he
      · exact hcl
      · exact hk e he

theorem mustSetAll_clean : ∀ {l : List (Bytes × V)} {v : V}, CleanObj v → (∀ p ∈ l, p.2 ≠ .nilp → Clean p.2) → ∃ w, mustSetAll E v l = .ok w ∧ CleanObj w
  | [], v, h, _ => ⟨v, rfl, h⟩
  | (k, c) :: l, v, h, hc => by
    obtain ⟨w, hw, ho⟩ := mustSetKey_clean (E := E) (k := k) h (hc (k, c) (by simp))
    obtain ⟨w', hw', ho'⟩ := mustSetAll_clean (l := l) ho (fun p hp => hc p (by simp [hp]))
    refine ⟨w', ?_, ho'⟩
    simp only [mustSetAll, hw]
    exact hw'

theorem members_clean (hS : GoodSort S) {n : BitVec 32} {kvs : List Ent} {low : Low} (h : Clean (.obj n kvs low)) :
    ∃ l, membersBySet S (.obj n kvs low) = .ok l ∧ ∀ p ∈ l, Clean p.2 := by
  refine ⟨(sortBy S (fun a b => decide (a.id ≤ b.id)) kvs).map fun e => (e.key, e.v), ?_, ?_⟩
  · simp [membersBySet, rangeObjectsBySet, isObject, onV, visit_all]
  · intro p hp
    obtain ⟨e, he, rfl⟩ := List.mem_map.1 hp
    have hk : Kid (.obj n kvs low) e.v := ⟨e, (sortBy_perm hS _ kvs).mem_iff.1 he, rfl⟩
    exact ⟨noNil_her (her_kid h.2 (fun l c hc h' => h.1 l (h' ▸ hc)) hk), her_kid h.2 h.2 hk⟩

/-- outcome of a value: an error, or something clean; nil only if `a` is false or it is to be omitted -/
def Out (a : Bool) (r : R V) : Prop := (∃ e, r = .err e) ∨ ∃ v, r = .ok v ∧ (a = true → v ≠ .nilp) ∧ (v ≠ .nilp → Clean v)

theorem out_mono {a b : Bool} {r : R V} (h : Out a r) (hab : b = true → a = true) : Out b r := by
  rcases h with h | ⟨v, h1, h2, h3⟩
  · exact .inl h
  · exact .inr ⟨v, h1, fun hb => h2 (hab hb), h3⟩

theorem out_leaf {a : Bool} {v : V} (hs : IsScalar v) (h1 : v ≠ .nilp) : Out a (.ok v) := .inr ⟨v, rfl, fun _ => h1, fun _ => clean_leaf hs h1⟩

theorem out_if {a c : Bool} {v : V} (hc : a = true → c = false) (hv : Out a (.ok v)) : Out a (.ok (if c then .nilp else v)) := by
  cases c with
  | true => exact .inr ⟨.nilp, rfl, fun h => absurd (hc h) (by simp), fun h => absurd rfl h⟩
  | false => exact hv

theorem marsh_clean {v : V} (h : Marshalable v) : Clean v := ⟨h.2.1, h.1⟩

theorem marshaler_out {ex : Ext} {a : Bool} (ha : a = true → ex.omit = false) (out : Option Bytes) : Out a (parseJSONMarshaler E ex out) := by
  cases out with
  | none => exact .inl ⟨_, rfl⟩
  | some b =>
    obtain ⟨v, e, h, -⟩ := C01_unmarshal_total E b
    cases e with
    | some e => exact .inl ⟨.other, by simp only [parseJSONMarshaler, h]⟩
    | none =>
      have hm := built_marshalable (.parsed b v (goUnmarshal_ok.1 h).2)
      simp only [parseJSONMarshaler, h]
      refine out_if (fun h => by simp [ha h]) (.inr ⟨v, rfl, fun _ => ?_, fun _ => marsh_clean hm⟩)
      rintro rfl
      exact hm.2.1 [] rfl

theorem simple_out {x : GoVal} (h : simple x = true) (ex : Ext) (ro : RO) : ∃ c, importVal E S F ex ro x = .ok c ∧ IsScalar c := by
  cases x with
  | bool b => refine ⟨_, rfl, ?_⟩; split; · trivial
              split <;> trivial
  | int b => refine ⟨_, rfl, ?_⟩; split; · trivial
             split <;> trivial
  | uint b => refine ⟨_, rfl, ?_⟩; split; · trivial
              split <;> trivial
  | flt w b => refine ⟨_, rfl, ?_⟩; split; · trivial
               split <;> trivial
  | str b => refine ⟨_, rfl, ?_⟩; split <;> trivial
  | invalid => refine ⟨_, rfl, ?_⟩; split <;> trivial
  | nilPtr t => refine ⟨_, rfl, ?_⟩; split <;> trivial
  | _ => simp [simple] at h

theorem emb_simple {x : GoVal} (h : simple x = true) (ex : Ext) (ro : RO) :
    (∃ e, importVal E S F ex ro x = .err e) ∨ ∃ c, importVal E S F ex ro x = .ok c ∧ (c ≠ .nilp → Clean c) := by
  obtain ⟨c, h1, h2⟩ := simple_out (E := E) (S := S) (F := F) h ex ro
  exact .inr ⟨c, h1, fun h => clean_leaf h2 h⟩

theorem anon_out (hS : GoodSort S) {c : V} (h : c ≠ .nilp → Clean c) (name : Bytes) (ex : Ext) : ∃ l, anonMembers S name ex c = .ok l ∧ ∀ p ∈ l, p.2 ≠ .nilp → Clean p.2 := by
  cases c with
  | nilp => exact ⟨[], rfl, by simp⟩
  | notExist => exact ⟨[], rfl, by simp⟩
  | obj n kvs low =>
    obtain ⟨l, h1, h2⟩ := members_clean hS (h (by simp))
    exact ⟨l, h1, fun p hp _ => h2 p hp⟩
  | _ =>
    simp only [anonMembers]
    split
    · exact ⟨[], rfl, by simp⟩
    · exact ⟨_, rfl, by simpa using h⟩

theorem anonTag_private (name tag : Bytes) (pex : Ext) : (readAnonymousFieldTag E name tag pex).2.isPrivate = !upper name := by
  rw [← upper_iff]; rfl

theorem fieldTag_private (name tag : Bytes) (pex : Ext) : (readFieldTag E name tag pex).2.isPrivate = false := by
  unfold readFieldTag; split <;> rfl

mutual
theorem total_val (hS : GoodSort S) : ∀ (x : GoVal) (ex : Ext) (a : Bool), ex.isPrivate = false → (a = true → ex.omit = false) → SaneV a x →
    Out a (importVal E S F ex .no x)
  | .invalid => by
    intro ex a _ ha _
    exact out_if ha (out_leaf trivial (by simp))
  | .bool b => by
    intro ex a _ ha _
    refine out_if (fun h => by simp [ha h]) ?_
    split <;> exact out_leaf trivial (by simp)
  | .int b => by
    intro ex a _ ha _
    refine out_if (fun h => by simp [ha h]) ?_
    split <;> exact out_leaf trivial (by simp [newInt64])
  | .uint b => by
    intro ex a _ ha _
    refine out_if (fun h => by simp [ha h]) ?_
    split <;> exact out_leaf trivial (by simp [newUint64])
  | .flt w b => by
    intro ex a _ ha _
    refine out_if (fun h => by simp [ha h]) ?_
    split <;> exact out_leaf trivial (by simp [newFloat, newFloat64f])
  | .str b => by
    intro ex a _ ha _
    exact out_if (fun h => by simp [ha h]) (out_leaf trivial (by simp))
  | .bytes false b => by
    intro ex a _ ha _
    simp only [importVal, if_true]
    exact out_if (fun h => by simp [ha h]) (out_leaf trivial (by simp [newBytes]))
  | .bytes true b => by
    intro ex a hp ha _
    have hcl : Clean newArray := clean_newArray
    simp only [importVal]
    split
    · exact out_if (fun h => by simp [ha h]) (.inr ⟨newArray, rfl, fun _ => by simp [newArray], fun _ => hcl⟩)
    · refine .inr ⟨_, rfl, fun _ => by simp, fun _ => clean_kids trivial (by simp) ?_⟩
      intro c hc
      obtain ⟨u, -, rfl⟩ := List.mem_map.1 (hc : c ∈ byteElems _ _ _)
      have : Ext.omit { ex with omitempty := false } = false := by simp [Ext.omit, hp]
      simp only [this, Bool.and_false]
      rw [if_neg (by simp)]
      split <;> exact clean_leaf trivial (by simp [newUint64])
  | .arr xs => by
    intro ex a hp ha hs
    exact out_mono (total_list hS xs { ex with omitempty := false } [] hp hs (by simp) rfl) (fun _ => rfl)
  | .nilSlice => by
    intro ex a _ ha _
    exact out_if ha (.inr ⟨newArray, rfl, fun _ => by simp [newArray], fun _ => clean_newArray⟩)
  | .slice xs => by
    intro ex a hp ha hs
    simp only [importVal]
    split
    · exact out_if ha (.inr ⟨newArray, rfl, fun _ => by simp [newArray], fun _ => clean_newArray⟩)
    · exact out_mono (total_list hS xs { ex with omitempty := false } [] hp hs (by simp) rfl) (fun _ => rfl)
  | .nilMap => by
    intro ex a _ ha _
    exact out_if ha (out_leaf trivial (by simp))
  | .map kvs => by
    intro ex a hp ha hs
    simp only [importVal]
    split
    · exact out_if ha (.inr ⟨newObject, rfl, fun _ => by simp [newObject], fun _ => cleanObj_clean cleanObj_new⟩)
    · rcases total_pairs hS kvs ex newObject hp hs cleanObj_new with h | ⟨v, h1, h2⟩
      · exact .inl h
      · exact .inr ⟨v, h1, fun _ => cleanObj_ne h2, fun _ => cleanObj_clean h2⟩
  | .badMap => by intro ex a _ ha _; exact .inl ⟨_, rfl⟩
  | .nilPtr t => by
    intro ex a _ ha _
    exact out_if ha (out_leaf trivial (by simp))
  | .ptr x => by intro ex a hp ha hs; exact total_val hS x ex a hp ha hs
  | .iface x => by intro ex a hp ha hs; exact total_val hS x ex a hp ha hs
  | .struct fs => by
    intro ex a hp ha hs
    rcases total_fields hS fs ex .no newObject (by simp) hs cleanObj_new with h | ⟨v, h1, h2⟩
    · exact .inl h
    · exact .inr ⟨v, h1, fun _ => cleanObj_ne h2, fun _ => cleanObj_clean h2⟩
  | .jv v => by
    intro ex a _ ha hs
    simp only [importVal, if_true]
    refine .inr ⟨_, rfl, ?_, ?_⟩
    · intro h h'
      cases v with
      | nilp => exact hs.1 h rfl
      | _ => simp [parseDeepCopier, deepCopy] at h'
    · intro h
      cases v with
      | nilp => exact absurd rfl h
      | _ =>
        simp only [parseDeepCopier, deepCopy_copied]
        refine ⟨fun l hl => ?_, copied_her copied_keysNodup hs.2⟩
        rw [copied_at] at hl
        obtain ⟨w, -, hw⟩ := Option.map_eq_some_iff.1 hl
        cases w <;> simp [copied] at hw
  | .marsh e out => by
    intro ex a _ ha _
    simp only [importVal, if_true]
    exact marshaler_out ha out
  | .text e out => by
    intro ex a _ ha _
    simp only [importVal, if_true]
    cases out with
    | none => exact .inl ⟨_, rfl⟩
    | some b => exact out_if (fun h => by simp [ha h]) (out_leaf trivial (by simp))
  | .nilMarsh => by
    intro ex a _ ha hs
    have hs : a = false := hs
    simp only [importVal, if_true]
    exact .inr ⟨.nilp, rfl, fun h => by simp [hs] at h, fun h => absurd rfl h⟩
  | .unsupported => by intro ex a _ ha _; exact .inl ⟨_, rfl⟩
termination_by structural x => x
theorem total_list (hS : GoodSort S) : ∀ (xs : List GoVal) (ex : Ext) (acc : List V), ex.isPrivate = false → SaneL xs → (∀ c ∈ acc, Clean c) →
    ex.omitempty = false → Out true (importList E S F ex .no (.arr acc) xs)
  | [] => by
    intro ex acc hp hs hc _
    exact .inr ⟨_, rfl, fun _ => by simp, fun _ => clean_kids trivial (by simp) hc⟩
  | x :: xs => by
    intro ex acc hp hs hc ho
    rcases total_val hS x ex true hp (fun _ => by simp [Ext.omit, hp, ho]) hs.1 with ⟨e, h⟩ | ⟨v, h1, h2, h3⟩
    · exact .inl ⟨e, by simp only [importList, h]⟩
    · simp only [importList, h1, mustAppend_arr]
      refine total_list hS xs ex _ hp hs.2 ?_ ho
      intro c hm
      rcases List.mem_append.1 hm with hm | hm
      · exact hc c hm
      · rw [List.mem_singleton.1 hm]; exact h3 (h2 rfl)
termination_by structural xs => xs
theorem total_pairs (hS : GoodSort S) : ∀ (ps : List GoPair) (ex : Ext) (v : V), ex.isPrivate = false → SaneP ps → CleanObj v →
    (∃ e, importPairs E S F ex .no v ps = .err e) ∨ ∃ w, importPairs E S F ex .no v ps = .ok w ∧ CleanObj w
  | [] => by
    intro ex v hp hs hv
    exact .inr ⟨v, rfl, hv⟩
  | p :: ps => by
    intro ex v hp hs hv
    rcases total_pair hS p ex hp hs.1 with ⟨e, h⟩ | ⟨k, c, h1, h2⟩
    · exact .inl ⟨e, by simp only [importPairs, h]⟩
    · obtain ⟨w, hw, ho⟩ := mustSetKey_clean (E := E) (k := k) hv h2
      simp only [importPairs, h1, hw]
      exact total_pairs hS ps ex w hp hs.2 ho
termination_by structural ps => ps
theorem total_pair (hS : GoodSort S) : ∀ (p : GoPair) (ex : Ext), ex.isPrivate = false → SanePair p →
    (∃ e, importPair E S F ex .no p = .err e) ∨ ∃ k c, importPair E S F ex .no p = .ok (k, c) ∧ (c ≠ .nilp → Clean c)
  | .mk k x => by
    intro ex hp hs
    rcases total_val hS x ex false hp (fun h => by cases h) hs with ⟨e, h⟩ | ⟨v, h1, h2, h3⟩
    · refine .inl ⟨e, ?_⟩
      simp only [importPair, h]; rfl
    · refine .inr ⟨k.text, v, ?_, h3⟩
      simp only [importPair, h1]; rfl
termination_by structural p => p
theorem total_fields (hS : GoodSort S) : ∀ (fs : List GoField) (ex : Ext) (ro : RO) (v : V), ro ≠ .sticky → SaneFs fs → CleanObj v →
    (∃ e, importFields E S F ex ro v fs = .err e) ∨ ∃ w, importFields E S F ex ro v fs = .ok w ∧ CleanObj w
  | [] => by
    intro ex ro v hro hs hv
    exact .inr ⟨v, rfl, hv⟩
  | f :: fs => by
    intro ex ro v hro hs hv
    rcases total_field hS f ex ro hro hs.1 with ⟨e, h⟩ | ⟨l, h1, h2⟩
    · exact .inl ⟨e, by simp only [importFields, h]⟩
    · obtain ⟨w, hw, ho⟩ := mustSetAll_clean (E := E) hv h2
      simp only [importFields, h1, hw]
      exact total_fields hS fs ex ro w hro hs.2 ho
termination_by structural fs => fs
theorem total_field (hS : GoodSort S) : ∀ (f : GoField) (pex : Ext) (ro : RO), ro ≠ .sticky → SaneF f →
    (∃ e, importField E S F pex ro f = .err e) ∨ ∃ l, importField E S F pex ro f = .ok l ∧ ∀ p ∈ l, p.2 ≠ .nilp → Clean p.2
  | .mk name tag false exported x => by
    intro pex ro hro hs
    have hx := total_val hS x
    simp only [importField]
    by_cases hf : ro.field false exported = .no
    · simp only [hf]
      by_cases hd : (readFieldTag E name tag pex).1 = [0x2D]
      · exact .inr ⟨[], by simp [hd], by simp⟩
      · have hs' : SaneV false x := by
          rcases hs with rfl | hs
          · cases ro <;> simp [RO.field] at hf
          · exact hs
        rcases hx (readFieldTag E name tag pex).2 false (fieldTag_private name tag pex) (fun h => by cases h) hs' with ⟨e, h⟩ | ⟨v, h1, h2, h3⟩
        · exact .inl ⟨e, by simp [hd, h]⟩
        · refine .inr ⟨if isNil v = true then [] else [((readFieldTag E name tag pex).1, v)], by simp [hd, h1], ?_⟩
          intro p hp
          cases hv : isNil v with
          | true => simp [hv] at hp
          | false => simp [hv] at hp; subst hp; exact h3
    · exact .inr ⟨[], by simp [hf], by simp⟩
  | .mk name tag true exported x => by
    intro pex ro hro hs
    have hx := total_val hS x
    have he := total_emb hS x
    simp only [importField]
    by_cases hd : (readAnonymousFieldTag E name tag pex).1 = [0x2D]
    · exact .inr ⟨[], by simp [hd], by simp⟩
    simp only [hd, if_false]
    by_cases hn : isNilPtr x = true
    · simp only [hn, if_true]
      split
      · exact .inr ⟨[], rfl, by simp⟩
      · exact .inr ⟨_, rfl, by simp; exact clean_leaf trivial (by simp)⟩
    simp only [hn]
    have key : (∃ e, importVal E S F (readAnonymousFieldTag E name tag pex).2 (ro.field true exported) x = .err e) ∨
        ∃ c, importVal E S F (readAnonymousFieldTag E name tag pex).2 (ro.field true exported) x = .ok c ∧ (c ≠ .nilp → Clean c) := by
      rcases hs with ⟨rfl, hu, hs⟩ | hs
      · have hf : ro.field true true = .no := by cases ro <;> simp_all [RO.field]
        rw [hf]
        rcases hx (readAnonymousFieldTag E name tag pex).2 false (by rw [anonTag_private, hu]; rfl) (fun h => by cases h) hs with h | ⟨v, h1, h2, h3⟩
        · exact .inl h
        · exact .inr ⟨v, h1, h3⟩
      · have hf : ro.field true exported ≠ .sticky := by cases ro <;> cases exported <;> simp_all [RO.field]
        exact he _ _ hf hs
    rcases key with ⟨e, h⟩ | ⟨c, h1, h2⟩
    · exact .inl ⟨e, by simp [h]⟩
    · obtain ⟨l, h3, h4⟩ := anon_out hS h2 (readAnonymousFieldTag E name tag pex).1 (readAnonymousFieldTag E name tag pex).2
      refine .inr ⟨l, ?_, h4⟩
      simp [h1]
      exact h3
termination_by structural f => f
theorem total_emb (hS : GoodSort S) : ∀ (x : GoVal) (ex : Ext) (ro : RO), ro ≠ .sticky → SaneE x →
    (∃ e, importVal E S F ex ro x = .err e) ∨ ∃ c, importVal E S F ex ro x = .ok c ∧ (c ≠ .nilp → Clean c)
  | .struct fs => by
    intro ex ro hro hs
    rcases total_fields hS fs ex ro newObject hro hs cleanObj_new with h | ⟨v, h1, h2⟩
    · exact .inl h
    · exact .inr ⟨v, h1, fun _ => cleanObj_clean h2⟩
  | .ptr x => by
    intro ex ro hro hs
    exact total_emb hS x ex ro hro hs
  | .invalid => by intro ex ro _ hs; exact emb_simple hs ex ro
  | .bool _ => by intro ex ro _ hs; exact emb_simple hs ex ro
  | .int _ => by intro ex ro _ hs; exact emb_simple hs ex ro
  | .uint _ => by intro ex ro _ hs; exact emb_simple hs ex ro
  | .flt _ _ => by intro ex ro _ hs; exact emb_simple hs ex ro
  | .str _ => by intro ex ro _ hs; exact emb_simple hs ex ro
  | .nilPtr _ => by intro ex ro _ hs; exact emb_simple hs ex ro
  | .bytes _ _ => by intro ex ro _ hs; exact emb_simple hs ex ro
  | .arr _ => by intro ex ro _ hs; exact emb_simple hs ex ro
  | .nilSlice => by intro ex ro _ hs; exact emb_simple hs ex ro
  | .slice _ => by intro ex ro _ hs; exact emb_simple hs ex ro
  | .nilMap => by intro ex ro _ hs; exact emb_simple hs ex ro
  | .map _ => by intro ex ro _ hs; exact emb_simple hs ex ro
  | .badMap => by intro ex ro _ hs; exact emb_simple hs ex ro
  | .iface _ => by intro ex ro _ hs; exact emb_simple hs ex ro
  | .jv _ => by intro ex ro _ hs; exact emb_simple hs ex ro
  | .marsh _ _ => by intro ex ro _ hs; exact emb_simple hs ex ro
  | .text _ _ => by intro ex ro _ hs; exact emb_simple hs ex ro
  | .nilMarsh => by intro ex ro _ hs; exact emb_simple hs ex ro
  | .unsupported => by intro ex ro _ hs; exact emb_simple hs ex ro
termination_by structural x => x
end

end JV
