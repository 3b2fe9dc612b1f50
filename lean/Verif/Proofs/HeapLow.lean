import Verif.Proofs.HeapFrame
/-!
A caseless search may build the lower case index of objects it passes; nothing else changes.
-/
namespace JV
open Spec

theorem lowOnly_refl (h : Heap) : LowOnly h h := rfl
theorem lowOnly_trans {h h1 h2 : Heap} (a : LowOnly h h1) (b : LowOnly h1 h2) : LowOnly h h2 := b.trans a

theorem lowOnly_set {h : Heap} {a : Nat} {n kvs low low'} (ha : h[a]? = some (.obj n kvs low)) : LowOnly h (h.set a (.obj n kvs low')) := by
  apply List.ext_getElem?
  intro i
  by_cases hi : a = i
  · subst hi
    have := (List.getElem?_eq_some_iff.1 ha).1
    simp only [List.getElem?_map, List.getElem?_set_self this, ha, Option.map_some, withoutLow]
  · simp [List.getElem?_set_ne hi]

theorem lowOnly_get {h h' : Heap} (hl : LowOnly h h') (a : Nat) : (h'[a]?).map withoutLow = (h[a]?).map withoutLow := by
  rw [← List.getElem?_map, ← List.getElem?_map, hl]

theorem lowOnly_arr {h h' : Heap} (hl : LowOnly h h') {a : Nat} {xs} (ha : h'[a]? = some (.arr xs)) : h[a]? = some (.arr xs) := by
  have := lowOnly_get hl a
  rw [ha] at this
  cases hc : h[a]? with
  | none => rw [hc] at this; cases this
  | some c =>
    rw [hc] at this
    simp only [Option.map_some, Option.some.injEq] at this
    cases c <;> simp [withoutLow] at this
    rw [this]

theorem lowOnly_obj {h h' : Heap} (hl : LowOnly h h') {a : Nat} {n kvs low} (ha : h'[a]? = some (.obj n kvs low)) : ∃ low', h[a]? = some (.obj n kvs low') := by
  have := lowOnly_get hl a
  rw [ha] at this
  cases hc : h[a]? with
  | none => rw [hc] at this; cases this
  | some c =>
    rw [hc] at this
    simp only [Option.map_some, Option.some.injEq] at this
    cases c with
    | obj m es low' =>
      simp only [withoutLow, Cell.obj.injEq] at this
      exact ⟨low', by rw [this.1, this.2.1]⟩
    | _ => simp [withoutLow] at this

theorem lowOnly_child {h h' : Heap} (hl : LowOnly h h') {p q s} (hc : ChildPtr h' p s q) : ChildPtr h p s q := by
  cases hc with
  | idx a xs i q ha hx => exact .idx a xs i q (lowOnly_arr hl ha) hx
  | key a n kvs low k e ha hx => obtain ⟨low', hb⟩ := lowOnly_obj hl ha; exact .key a n kvs low' k e hb hx

theorem lowOnly_leads {h h' : Heap} (hl : LowOnly h h') {p q l} (hc : Leads h' p l q) : Leads h p l q := by
  induction hc with
  | here p => exact .here p
  | step p q r s l h1 h2 ih => exact .step p q r s l (lowOnly_child hl h1) ih

/-- only lower case indexes change, and a pointer that is returned is found below the receiver -/
def Got (h : Heap) (v : Ptr) (r : Heap × R Ptr) : Prop := LowOnly h r.1 ∧ ∀ q, r.2 = .ok q → ∃ l, Leads h v l q

theorem got_fail {h h' : Heap} {v : Ptr} {t : R Ptr} (hl : LowOnly h h') (ht : ∀ q, t ≠ .ok q) : Got h v (h', t) := ⟨hl, fun q hq => absurd hq (ht q)⟩

theorem hlocate_got {E : Env} {cl : Bool} {h : Heap} {v : Ptr} {p : Param} : Got h v (hlocate E cl h v p) := by
  have hfail : ∀ {t : R Ptr}, (∀ q, t ≠ .ok q) → Got h v (h, t) := got_fail (lowOnly_refl h)
  cases v with
  | none => exact hfail (by simp)
  | some a =>
    simp only [hlocate]
    cases hd : h[a]? with
    | none => exact hfail (by simp)
    | some d =>
      cases d with
      | arr xs =>
        simp only
        cases anyToInt p with
        | ok pos =>
          simp only
          split
          · exact hfail (by simp)
          · cases hx : xs[(posForRead xs.length pos).toNat]? with
            | none => exact hfail (by simp)
            | some q =>
              refine ⟨lowOnly_refl h, fun b hb => ?_⟩
              cases hb
              exact ⟨_, .step _ q q _ [] (.idx a xs _ q hd hx) (.here q)⟩
        | err e => exact hfail (by simp)
        | panic => exact hfail (by simp)
        | diverge => exact hfail (by simp)
      | obj n kvs low =>
        simp only
        cases anyToString p with
        | ok key =>
          simp only
          cases hf : findKey E cl (keysOf kvs) low key with
          | mk low' k =>
            cases k with
            | none => exact got_fail (lowOnly_set hd) (by simp)
            | some k =>
              simp only
              cases hl : hlookup k kvs with
              | none => exact got_fail (lowOnly_set hd) (by simp)
              | some e =>
                refine ⟨lowOnly_set hd, fun b hb => ?_⟩
                simp only [R.ok.injEq] at hb
                rw [← hb]
                exact ⟨_, .step _ e.v e.v (.key k) [] (.key a n kvs low k e hd (by rw [← hlookup_find]; exact hl)) (.here _)⟩
        | err e => exact hfail (by simp)
        | panic => exact hfail (by simp)
        | diverge => exact hfail (by simp)
      | _ => exact hfail (by simp)

theorem leads_trans {h : Heap} {p q r : Ptr} {l m : List Step} (h1 : Leads h p l q) (h2 : Leads h q m r) : Leads h p (l ++ m) r := by
  induction h1 with
  | here p => exact h2
  | step p q r s l h1 _ ih => exact .step p q _ s _ h1 (ih h2)

mutual
theorem hget1_got {E : Env} {cl : Bool} : ∀ (p : Param) {h : Heap} {v : Ptr}, Got h v (hget1 E cl h v p)
  | .slice qs, h, v => by
    unfold hget1
    split
    · exact hlocate_got
    · exact hget_got qs
  | .str s, h, v => by unfold hget1; exact hlocate_got
  | .int z, h, v => by unfold hget1; exact hlocate_got
  | .uint z, h, v => by unfold hget1; exact hlocate_got
  | .nil, h, v => by unfold hget1; exact hlocate_got
  | .other, h, v => by unfold hget1; exact hlocate_got
theorem hget_got {E : Env} {cl : Bool} : ∀ (ps : List Param) {h : Heap} {v : Ptr}, Got h v (hget E cl h v ps)
  | [], h, v => by unfold hget; exact got_fail (lowOnly_refl h) (by simp)
  | p :: rest, h, v => by
    unfold hget
    split
    · exact hget1_got p
    · split
      · exact got_fail (lowOnly_refl h) (by simp)
      · obtain ⟨h1, h2⟩ := hlocate_got (E := E) (cl := cl) (h := h) (v := v) (p := p)
        cases hl : hlocate E cl h v p with
        | mk h' t =>
          rw [hl] at h1 h2
          simp only at h1 h2
          cases t with
          | ok q =>
            obtain ⟨h3, h4⟩ := hget_got (E := E) (cl := cl) rest (h := h') (v := q)
            refine ⟨lowOnly_trans h1 h3, fun b hb => ?_⟩
            obtain ⟨m, hm⟩ := h4 b hb
            obtain ⟨l, hl⟩ := h2 q rfl
            exact ⟨l ++ m, leads_trans hl (lowOnly_leads h1 hm)⟩
          | err e => exact got_fail h1 (by simp)
          | panic => exact got_fail h1 (by simp)
          | diverge => exact got_fail h1 (by simp)
end

end JV
