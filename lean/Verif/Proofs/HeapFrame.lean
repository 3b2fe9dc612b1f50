import Verif.Proofs.HeapRegion
/-!
Set, Insert and Append on arbitrary heaps: one existing object is written, it is reachable from the receiver, and afterwards the given child
itself is reachable from it. When they fail, no existing object has changed.
-/
namespace JV
open Spec

/-- no existing object changed -/
def Same0 (h h' : Heap) : Prop := ∀ y, y < h.length → h'[y]? = h[y]?

/-- what storing `c` under the receiver `v` does -/
def Stores (h : Heap) (v c : Ptr) (r : Heap × R Ptr) : Prop :=
  (Same0 h r.1 ∧ ∀ q, r.2 ≠ .ok q) ∨
  (r.2 = .ok c ∧ ∃ a d, v = some a ∧ Reaches h a d ∧ d < h.length ∧ (∀ y, y < h.length → y ≠ d → r.1[y]? = h[y]?) ∧ ∀ x, c = some x → StrictlyBelow r.1 d x)

theorem stores_err {h : Heap} {v c : Ptr} {e : Err} : Stores h v c (h, .err e) := .inl ⟨fun _ _ => rfl, by intro q hq; cases hq⟩
theorem stores_panic {h : Heap} {v c : Ptr} : Stores h v c (h, .panic) := .inl ⟨fun _ _ => rfl, by intro q hq; cases hq⟩

theorem stores_if {h : Heap} {v c : Ptr} {b : Prop} [Decidable b] {x y : Heap × R Ptr} (hx : Stores h v c x) (hy : Stores h v c y) : Stores h v c (if b then x else y) := by
  split
  · exact hx
  · exact hy

/-- one object is overwritten with one that holds the pointer -/
theorem stores_write {h : Heap} {a : Nat} {c : Ptr} {cell old : Cell} (ho : h[a]? = some old) (hk : c ∈ kids cell) : Stores h (some a) c (h.set a cell, .ok c) := by
  have hl := (List.getElem?_eq_some_iff.1 ho).1
  refine .inr ⟨rfl, a, a, rfl, .refl a, hl, fun y _ hy => List.getElem?_set_ne (Ne.symm hy), ?_⟩
  intro x hx
  exact ⟨x, cell, by simp [List.getElem?_set_self hl], hx ▸ hk, .refl x⟩

theorem strictly_reaches {h : Heap} {a b : Nat} (hs : StrictlyBelow h a b) : Reaches h a b := by
  obtain ⟨k, cell, h1, h2, h3⟩ := hs
  exact .step a k b cell h1 h2 h3

theorem hassign_mem (e : HEnt) (kvs : List HEnt) : e ∈ hassign e kvs := by
  induction kvs with
  | nil => simp [hassign]
  | cons y ys ih =>
    simp only [hassign]
    split
    · simp
    · simp [ih]

theorem hsetKey_stores {E : Env} {h : Heap} {a : Nat} {k : Bytes} {c : Ptr} : Stores h (some a) c (hsetKey E h a k c) := by
  unfold hsetKey
  cases hc : h[a]? with
  | none => exact stores_panic
  | some d =>
    cases d with
    | obj n kvs low => exact stores_write hc (List.mem_map.2 ⟨_, hassign_mem _ _, rfl⟩)
    | _ => exact stores_panic

theorem hatLast_stores {E : Env} {h : Heap} {v c : Ptr} {p : Param} : Stores h v c (hatLast E h v c p) := by
  cases v with
  | none => exact stores_panic
  | some a =>
    simp only [hatLast]
    cases hc : h[a]? with
    | none => exact stores_panic
    | some d =>
      cases d with
      | obj n kvs low =>
        simp only
        cases anyToString p with
        | ok k => exact hsetKey_stores
        | err e => exact stores_err
        | panic => exact stores_panic
        | diverge => exact stores_panic
      | arr xs =>
        simp only
        cases anyToInt p with
        | ok pos =>
          simp only
          cases hx : setAtIndex xs c pos with
          | ok q =>
            refine stores_write hc ?_
            obtain ⟨ys, i⟩ := q
            rw [setAtIndex_eq] at hx
            split at hx
            · cases hx; simp [kids]
            · split at hx
              · next i' hi => cases hx; exact List.mem_set (index_lt hi) _
              · cases hx
          | err e => exact stores_err
          | panic => exact stores_panic
          | diverge => exact stores_panic
        | err e => exact stores_err
        | panic => exact stores_panic
        | diverge => exact stores_panic
      | _ => exact stores_err

/-- writing an object does not cut off the ways to it -/
theorem reaches_written {h h' : Heap} {a d : Nat} (hr : Reaches h a d) (hf : ∀ y, y < h.length → y ≠ d → h'[y]? = h[y]?) : Reaches h' a d := by
  induction hr with
  | refl a => exact .refl a
  | step a b c cell ha hb _ ih =>
    by_cases hac : a = c
    · subst hac; exact .refl a
    · exact .step a b c cell (by rw [hf a (List.getElem?_eq_some_iff.1 ha).1 hac, ha]) hb (ih hf)

/-- objects only gain children -/
theorem reaches_gain {h h' : Heap} {a d : Nat} (hr : Reaches h a d) (hg : ∀ (y : Nat) cell, h[y]? = some cell → ∃ cell', h'[y]? = some cell' ∧ ∀ p ∈ kids cell, p ∈ kids cell') : Reaches h' a d := by
  induction hr with
  | refl a => exact .refl a
  | step a b c cell ha hb _ ih =>
    obtain ⟨cell', h1, h2⟩ := hg a cell ha
    exact .step a b c cell' h1 (h2 _ hb) ih

theorem reaches_in {h : Heap} {S : Nat → Prop} (hS : SelfContained h S) {a b : Nat} (ha : S a) (hr : Reaches h a b) : S b := by
  induction hr with
  | refl a => exact ha
  | step a b c cell hc hb _ ih => exact ih (region_kid hS ha hc (some b) hb b rfl)

/-- inside a region, what happens elsewhere does not matter -/
theorem reaches_back {h h' : Heap} {S : Nat → Prop} (hS : SelfContained h S) (hf : ∀ y, S y → h'[y]? = h[y]?) {a b : Nat} (ha : S a) (hr : Reaches h' a b) : Reaches h a b := by
  induction hr with
  | refl a => exact .refl a
  | step a b c cell hc hb _ ih =>
    have hc' : h[a]? = some cell := by rw [← hf a ha, hc]
    exact .step a b c cell hc' hb (ih (region_kid hS ha hc' (some b) hb b rfl))

theorem hassign_keeps {e : HEnt} {kvs : List HEnt} (hn : hlookup e.key kvs = none) : hassign e kvs = kvs ++ [e] := by
  induction kvs with
  | nil => rfl
  | cons x xs ih =>
    simp only [hlookup] at hn
    split at hn
    · cases hn
    · next hx => simp [hassign, hx, ih hn]

/-- a container is created, filled and linked into the object at `a` -/
theorem new_stores {E : Env} {h : Heap} {a : Nat} (hla : a < h.length) {c : Ptr} {rest : List Param} {cell : Cell} (hcell : kids cell = [])
    (ih : Stores (h ++ [cell]) (some h.length) c (hsetAt E (h ++ [cell]) (some h.length) c rest))
    {link : Heap → Heap × R Ptr} (hl : ∀ h', h'[a]? = h[a]? → ∃ old new, h'[a]? = some old ∧ link h' = (h'.set a new, .ok (some h.length)) ∧ some h.length ∈ kids new ∧ ∀ p ∈ kids old, p ∈ kids new) :
    Stores h (some a) c (hthen (hsetAt E (h ++ [cell]) (some h.length) c rest) fun h' c => hthen (link h') fun h' _ => (h', .ok c)) := by
  cases hr : hsetAt E (h ++ [cell]) (some h.length) c rest with
  | mk h1 t =>
    rw [hr] at ih
    rcases ih with ⟨h2, h3⟩ | ⟨h2, N, d, hN, hNd, hd, hf, hx⟩
    · have : hthen (h1, t) (fun h' c => hthen (link h') fun h' _ => (h', .ok c)) = (h1, t) := hthen_fail h3
      rw [this]
      refine .inl ⟨fun y hy => ?_, h3⟩
      have := h2 y (by simp; omega)
      simp only at this
      rw [this, List.getElem?_append_left hy]
    · simp only at h2 hf hx
      subst h2
      cases hN
      have hdN : d = h.length := by
        cases hNd with
        | refl => rfl
        | step _ b _ cl hcl hb _ =>
          simp at hcl; subst hcl; rw [hcell] at hb; cases hb
      subst hdN
      have hold : ∀ y, y < h.length → h1[y]? = h[y]? := fun y hy => by
        rw [hf y (by simp; omega) (by omega), List.getElem?_append_left hy]
      obtain ⟨old, new, ho, hlk, hm, hkeep⟩ := hl h1 (hold a hla)
      have hlen : a < h1.length := (List.getElem?_eq_some_iff.1 ho).1
      simp only [hthen, hlk]
      refine .inr ⟨rfl, a, a, rfl, .refl a, hla, fun y hy hya => by simp only; rw [List.getElem?_set_ne (Ne.symm hya), hold y hy], ?_⟩
      intro x hxc
      refine ⟨h.length, new, by simp [List.getElem?_set_self hlen], hm, ?_⟩
      refine reaches_gain (strictly_reaches (hx x hxc)) ?_
      intro y cl hcl
      by_cases hya : y = a
      · subst hya
        rw [ho] at hcl; cases hcl
        exact ⟨new, by simp [List.getElem?_set_self hlen], hkeep⟩
      · exact ⟨cl, by simp only; rw [List.getElem?_set_ne (Ne.symm hya), hcl], fun p hp => hp⟩

theorem stores_below {h : Heap} {a : Nat} {q c : Ptr} {cell : Cell} {r : Heap × R Ptr} (ha : h[a]? = some cell) (hq : q ∈ kids cell) (hs : Stores h q c r) : Stores h (some a) c r := by
  rcases hs with hs | ⟨h1, b, d, rfl, hbd, hd, hf, hx⟩
  · exact .inl hs
  · exact .inr ⟨h1, a, d, rfl, .step a b d cell ha hq hbd, hd, hf, hx⟩

theorem hset_two_stores {E : Env} {h : Heap} {v c : Ptr} (p next : Param) (rest : List Param)
    (ih : ∀ {h : Heap} {v c : Ptr}, Stores h v c (hsetAt E h v c (next :: rest))) :
    Stores h v c (hsetAt E h v c (p :: next :: rest)) := by
  conv => arg 4; unfold hsetAt
  simp only
  refine stores_if stores_err (stores_if stores_err ?_)
  cases v with
  | none => exact stores_panic
  | some a =>
    cases hd : h[a]? with
    | none => simp only [hd]; exact stores_panic
    | some d =>
      simp only [hd]
      have hla := (List.getElem?_eq_some_iff.1 hd).1
      cases d with
      | obj n kvs low =>
        simp only
        cases anyToString p with
        | ok k =>
          simp only
          cases hl : hlookup k kvs with
          | some e => exact stores_below hd (List.mem_map_of_mem (hlookup_mem hl).1) ih
          | none =>
            simp only
            cases hn : hnewContainer next with
            | ok cell =>
              refine new_stores hla (newContainer_kids hn) ih (link := fun h' => hsetKey E h' a k (some h.length)) ?_
              intro h' hh
              rw [hd] at hh
              refine ⟨_, .obj (n + 1) (hassign ⟨k, n + 1, some h.length⟩ kvs) (addCaseless E low k), hh, by simp [hsetKey, hh], List.mem_map.2 ⟨_, hassign_mem _ _, rfl⟩, ?_⟩
              intro p hp
              rw [hassign_keeps hl]
              simp only [kids] at hp ⊢
              simp [hp]
            | err e => exact stores_err
            | panic => exact stores_panic
            | diverge => exact stores_panic
        | err e => exact stores_err
        | panic => exact stores_panic
        | diverge => exact stores_panic
      | arr xs =>
        simp only
        cases anyToInt p with
        | ok pos =>
          simp only
          split
          · cases hn : hnewContainer next with
            | ok cell =>
              refine new_stores hla (newContainer_kids hn) ih (link := fun h' => hpush h' a (some h.length)) ?_
              intro h' hh
              rw [hd] at hh
              exact ⟨_, .arr (xs ++ [some h.length]), hh, by simp [hpush, hh], by simp [kids], fun p hp => List.mem_append_left _ hp⟩
            | err e => exact stores_err
            | panic => exact stores_panic
            | diverge => exact stores_panic
          · cases hx : xs[(posForRead xs.length pos).toNat]? with
            | none => exact stores_panic
            | some q => exact stores_below hd (List.mem_of_getElem? hx) ih
        | err e => exact stores_err
        | panic => exact stores_panic
        | diverge => exact stores_panic
      | _ => exact stores_err

mutual
theorem hsetAt1_stores {E : Env} : ∀ (p : Param) {h : Heap} {v c : Ptr}, Stores h v c (hsetAt1 E h v c p)
  | .slice qs, h, v, c => by unfold hsetAt1; exact stores_if (stores_if stores_err hatLast_stores) (hsetAt_stores qs)
  | .str s, h, v, c => by unfold hsetAt1; exact stores_if stores_err hatLast_stores
  | .int z, h, v, c => by unfold hsetAt1; exact stores_if stores_err hatLast_stores
  | .uint z, h, v, c => by unfold hsetAt1; exact stores_if stores_err hatLast_stores
  | .nil, h, v, c => by unfold hsetAt1; exact stores_if stores_err hatLast_stores
  | .other, h, v, c => by unfold hsetAt1; exact stores_if stores_err hatLast_stores
theorem hsetAt_stores {E : Env} : ∀ (ps : List Param) {h : Heap} {v c : Ptr}, Stores h v c (hsetAt E h v c ps)
  | [], h, v, c => by unfold hsetAt; exact stores_panic
  | [p], h, v, c => by unfold hsetAt; exact hsetAt1_stores p
  | p :: q :: rest, h, v, c => hset_two_stores p q rest (hsetAt_stores (q :: rest))
end

/-! ## Get without caseless changes nothing -/

theorem findKey_plain (E : Env) (es : List Ent) (low : Low) (k : Bytes) : (findKey E false es low k).1 = low := by
  unfold findKey
  split <;> simp

theorem set_same {h : Heap} {a : Nat} {c : Cell} (hc : h[a]? = some c) : h.set a c = h := by
  apply List.ext_getElem?
  intro i
  by_cases hi : a = i
  · subst hi; rw [List.getElem?_set_self (List.getElem?_eq_some_iff.1 hc).1, hc]
  · rw [List.getElem?_set_ne hi]

/-- the returned pointer leads to something below the receiver -/
def Finds (h : Heap) (v : Ptr) (r : Heap × R Ptr) : Prop := r.1 = h ∧ ∀ b, r.2 = .ok (some b) → ∃ a, v = some a ∧ Reaches h a b

theorem hlocate_finds {E : Env} {h : Heap} {v : Ptr} {p : Param} : Finds h v (hlocate E false h v p) := by
  have hfail : ∀ {t : R Ptr}, (∀ b, t ≠ .ok (some b)) → Finds h v (h, t) := fun ht => ⟨rfl, fun b hb => absurd hb (ht b)⟩
  cases v with
  | none => exact hfail (by simp)
  | some a =>
    simp only [hlocate]
    cases hd : h[a]? with
    | none => exact hfail (by simp)
    | some d =>
      cases d with
      | arr xs =>
        simp only
        cases anyToInt p with
        | ok pos =>
          simp only
          split
          · exact hfail (by simp)
          · cases hx : xs[(posForRead xs.length pos).toNat]? with
            | none => exact hfail (by simp)
            | some q =>
              refine ⟨rfl, fun b hb => ?_⟩
              cases hb
              exact ⟨a, rfl, .step a b b _ hd (List.mem_of_getElem? hx) (.refl b)⟩
        | err e => exact hfail (by simp)
        | panic => exact hfail (by simp)
        | diverge => exact hfail (by simp)
      | obj n kvs low =>
        simp only
        cases anyToString p with
        | ok key =>
          simp only
          have hpl := findKey_plain E (keysOf kvs) low key
          cases hf : findKey E false (keysOf kvs) low key with
          | mk low' k =>
            rw [hf] at hpl
            simp only at hpl
            subst hpl
            cases k with
            | none => simp only [set_same hd]; exact hfail (by simp)
            | some k =>
              simp only [set_same hd]
              cases hl : hlookup k kvs with
              | none => exact hfail (by simp)
              | some e =>
                refine ⟨rfl, fun b hb => ⟨a, rfl, .step a b b _ hd ?_ (.refl b)⟩⟩
                simp only [R.ok.injEq] at hb
                rw [← hb]
                exact List.mem_map_of_mem (hlookup_mem hl).1
        | err e => exact hfail (by simp)
        | panic => exact hfail (by simp)
        | diverge => exact hfail (by simp)
      | _ => exact hfail (by simp)

mutual
theorem hget1_finds {E : Env} : ∀ (p : Param) {h : Heap} {v : Ptr}, Finds h v (hget1 E false h v p)
  | .slice qs, h, v => by
    unfold hget1
    split
    · exact hlocate_finds
    · exact hget_finds qs
  | .str s, h, v => by unfold hget1; exact hlocate_finds
  | .int z, h, v => by unfold hget1; exact hlocate_finds
  | .uint z, h, v => by unfold hget1; exact hlocate_finds
  | .nil, h, v => by unfold hget1; exact hlocate_finds
  | .other, h, v => by unfold hget1; exact hlocate_finds
theorem hget_finds {E : Env} : ∀ (ps : List Param) {h : Heap} {v : Ptr}, Finds h v (hget E false h v ps)
  | [], h, v => by unfold hget; exact ⟨rfl, by intro b hb; cases hb⟩
  | p :: rest, h, v => by
    unfold hget
    split
    · exact hget1_finds p
    · split
      · exact ⟨rfl, by intro b hb; cases hb⟩
      · obtain ⟨h1, h2⟩ := hlocate_finds (E := E) (h := h) (v := v) (p := p)
        cases hl : hlocate E false h v p with
        | mk h' t =>
          rw [hl] at h1 h2
          simp only at h1 h2
          subst h1
          cases t with
          | ok q =>
            obtain ⟨h3, h4⟩ := hget_finds (E := E) rest (h := h') (v := q)
            refine ⟨h3, fun b hb => ?_⟩
            obtain ⟨x, rfl, hx⟩ := h4 b hb
            obtain ⟨a, rfl, ha⟩ := h2 x rfl
            exact ⟨a, rfl, reaches_trans ha hx⟩
          | err e => exact ⟨rfl, by intro b hb; cases hb⟩
          | panic => exact ⟨rfl, by intro b hb; cases hb⟩
          | diverge => exact ⟨rfl, by intro b hb; cases hb⟩
end

theorem hgetArray_finds {E : Env} {h : Heap} {v : Ptr} {ps : List Param} :
    (hgetArray E h v ps).1 = h ∧ ∀ q, (hgetArray E h v ps).2 = .ok q → ∃ a b xs, v = some a ∧ q = some b ∧ Reaches h a b ∧ h[b]? = some (.arr xs) := by
  obtain ⟨h1, h2⟩ := hget_finds (E := E) ps (h := h) (v := v)
  unfold hgetArray
  cases hr : hget E false h v ps with
  | mk h' t =>
    rw [hr] at h1 h2
    simp only at h1 h2
    subst h1
    cases t with
    | ok q =>
      simp only [hthen]
      cases q with
      | none => exact ⟨rfl, by intro q hq; cases hq⟩
      | some b =>
        obtain ⟨a, rfl, hab⟩ := h2 b rfl
        cases hb : h'[b]? with
        | none => simp [hb]
        | some cell =>
          simp only [hb]
          cases cell with
          | arr xs => exact ⟨rfl, by intro q hq; cases hq; exact ⟨a, b, xs, rfl, rfl, hab, hb⟩⟩
          | _ => exact ⟨rfl, by intro q hq; cases hq⟩
    | err e => exact ⟨rfl, by intro q hq; cases hq⟩
    | panic => exact ⟨rfl, by intro q hq; cases hq⟩
    | diverge => exact ⟨rfl, by intro q hq; cases hq⟩

theorem insertToArr_has {xs ys : List Ptr} {i : Nat} {c : Ptr} (h : insertToArr xs i c = .ok ys) (hi : i ≤ xs.length) : c ∈ ys := by
  rw [insertToArr_eq xs i c hi] at h
  cases h
  simp

theorem hinsertLast_stores {after : Bool} {h : Heap} {v c : Ptr} {p : Param} : Stores h v c (hinsertLast after h v c p) := by
  cases v with
  | none => exact stores_if stores_err stores_panic
  | some a =>
    simp only [hinsertLast]
    cases hd : h[a]? with
    | none => exact stores_panic
    | some d =>
    cases d with
    | arr xs =>
      simp only
      cases anyToInt p with
      | ok pos =>
        simp only
        by_cases h1 : (if after = true then posForInsertAfter xs.length pos else (posForInsertBefore xs.length pos, false)).1 < 0
        · rw [if_pos h1]; exact stores_err
        · rw [if_neg h1]
          by_cases h2 : (if after = true then posForInsertAfter xs.length pos else (posForInsertBefore xs.length pos, false)).2 = true
          · rw [if_pos h2]; exact stores_write hd (by simp [kids])
          · rw [if_neg h2]
            have hb : (if after = true then posForInsertAfter xs.length pos else (posForInsertBefore xs.length pos, false)).1.toNat ≤ xs.length := by
              cases after with
              | true => exact posAfter_bound h1 (by simpa using h2)
              | false => exact posBefore_bound h1
            cases hi : insertToArr xs (if after = true then posForInsertAfter xs.length pos else (posForInsertBefore xs.length pos, false)).1.toNat c with
            | ok ys => exact stores_write hd (insertToArr_has hi hb)
            | err e => exact stores_panic
            | panic => exact stores_panic
            | diverge => exact stores_panic
      | err e => exact stores_err
      | panic => exact stores_panic
      | diverge => exact stores_panic
    | _ => exact stores_err

theorem stores_via {h : Heap} {a b : Nat} {c : Ptr} {r : Heap × R Ptr} (hab : Reaches h a b) (hs : Stores h (some b) c r) : Stores h (some a) c r := by
  rcases hs with hs | ⟨h1, b', d, hb, hbd, hd, hf, hx⟩
  · exact .inl hs
  · cases hb
    exact .inr ⟨h1, a, d, rfl, reaches_trans hab hbd, hd, hf, hx⟩

theorem getArray_then_stores {E : Env} {h : Heap} {v c : Ptr} {ps : List Param} {g : Heap → Ptr → Heap × R Ptr} (hg : ∀ h q, Stores h q c (g h q)) :
    Stores h v c (hthen (hgetArray E h v ps) g) := by
  obtain ⟨h1, h2⟩ := hgetArray_finds (E := E) (h := h) (v := v) (ps := ps)
  cases hr : hgetArray E h v ps with
  | mk h' t =>
    rw [hr] at h1 h2
    simp only at h1 h2
    subst h1
    cases t with
    | ok q =>
      obtain ⟨a, b, xs, rfl, rfl, hab, -⟩ := h2 q rfl
      exact stores_via hab (hg h' (some b))
    | err e => exact stores_err
    | panic => exact stores_panic
    | diverge => exact .inl ⟨fun _ _ => rfl, by intro q hq; cases hq⟩

mutual
theorem hinsertAt1_stores {E : Env} {after : Bool} : ∀ (p : Param) {h : Heap} {v c : Ptr}, Stores h v c (hinsertAt1 E after h v c p)
  | .slice qs, h, v, c => by unfold hinsertAt1; exact stores_if hinsertLast_stores (hinsertAt_stores qs [])
  | .str s, h, v, c => by unfold hinsertAt1; exact hinsertLast_stores
  | .int z, h, v, c => by unfold hinsertAt1; exact hinsertLast_stores
  | .uint z, h, v, c => by unfold hinsertAt1; exact hinsertLast_stores
  | .nil, h, v, c => by unfold hinsertAt1; exact hinsertLast_stores
  | .other, h, v, c => by unfold hinsertAt1; exact hinsertLast_stores
theorem hinsertAt_stores {E : Env} {after : Bool} : ∀ (ps pre : List Param) {h : Heap} {v c : Ptr}, Stores h v c (hinsertAt E after h v c pre ps)
  | [], pre, h, v, c => by unfold hinsertAt; exact stores_panic
  | p :: rest, pre, h, v, c => by
    unfold hinsertAt
    refine stores_if (hinsertAt_stores rest _) ?_
    cases pre with
    | nil => exact hinsertAt1_stores p
    | cons first pre =>
      refine stores_if stores_err ?_
      cases v with
      | none => exact stores_if stores_err stores_panic
      | some a => exact stores_if stores_err (getArray_then_stores fun h q => hinsertAt1_stores p)
end

theorem happendTo_stores {beg : Bool} {h : Heap} {a : Nat} {xs : List Ptr} {c : Ptr} (ha : h[a]? = some (.arr xs)) : Stores h (some a) c (happendTo beg h (some a) c) := by
  simp only [happendTo, ha]
  refine stores_if ?_ (stores_write ha (by simp [kids]))
  cases hi : insertToArr xs 0 c with
  | ok ys => exact stores_write ha (insertToArr_has hi (by omega))
  | err e => exact stores_panic
  | panic => exact stores_panic
  | diverge => exact stores_panic

theorem happendPath_stores {E : Env} {beg : Bool} {h : Heap} {S : Nat → Prop} (hS : SelfContained h S) {v : Ptr} (hv : In S v) {c : Ptr} {ps : List Param} :
    Stores h v c (happendPath E beg h v c ps) := by
  obtain ⟨h1, h2⟩ := hgetArray_finds (E := E) (h := h) (v := v) (ps := ps)
  unfold happendPath
  cases hr : hgetArray E h v ps with
  | mk h' t =>
    rw [hr] at h1 h2
    simp only at h1 h2
    subst h1
    cases t with
    | ok q =>
      obtain ⟨a, b, xs, rfl, rfl, hab, hb⟩ := h2 q rfl
      exact stores_via hab (happendTo_stores hb)
    | err e =>
      by_cases he : e = .notFound
      · subst he
        simp only
        have hset := hsetAt_stores (E := E) ps (h := h' ++ [.arr []]) (v := v) (c := some h'.length)
        cases hs : hsetAt E (h' ++ [.arr []]) v (some h'.length) ps with
        | mk h3 t3 =>
          rw [hs] at hset
          rcases hset with ⟨h4, h5⟩ | ⟨h4, a, d, rfl, had, hd, hf, hx⟩
          · have : hthen (h3, t3) (fun h q => happendTo beg h q c) = (h3, t3) := hthen_fail h5
            rw [this]
            refine .inl ⟨fun y hy => ?_, h5⟩
            simp only at h4 ⊢
            rw [h4 y (by simp; omega), List.getElem?_append_left hy]
          · simp only at h4 hf hx
            subst h4
            have hSa := hv a rfl
            have hfr : ∀ y, S y → (h' ++ [Cell.arr []])[y]? = h'[y]? := fun y hy => List.getElem?_append_left (selfContained_lt hS hy)
            have had' := reaches_back hS hfr hSa had
            have hdl := selfContained_lt hS (reaches_in hS hSa had')
            have hN : h3[h'.length]? = some (.arr []) := by rw [hf h'.length (by simp) (by omega)]; simp
            simp only [hthen]
            rcases happendTo_stores (beg := beg) (c := c) hN with ⟨-, h6⟩ | ⟨h6, N, e, hNe, hNe', -, hf2, hx2⟩
            · exfalso
              apply h6 c
              simp only [happendTo, hN]
              split
              · next hb => simp at hb
              · rfl
            · cases hNe
              have hlen3 : h'.length < h3.length := (List.getElem?_eq_some_iff.1 hN).1
              have hNe'' : e = h'.length := by
                cases hNe' with
                | refl => rfl
                | step _ b _ cl hcl hb _ => rw [hN] at hcl; cases hcl; cases hb
              subst hNe''
              refine .inr ⟨h6, a, d, rfl, had', hdl, fun y hy hyd => ?_, fun x hxc => ?_⟩
              · rw [hf2 y (by omega) (by omega), hf y (by simp; omega) hyd, List.getElem?_append_left hy]
              · obtain ⟨k, cell, h7, h8, h9⟩ := hx h'.length rfl
                have hdl3 : d < h3.length := (List.getElem?_eq_some_iff.1 h7).1
                exact ⟨k, cell, by rw [hf2 d hdl3 (by omega), h7], h8, reaches_trans (reaches_written h9 hf2) (strictly_reaches (hx2 x hxc))⟩
      · cases e <;> first | exact stores_err | exact absurd rfl he
    | panic => exact stores_panic
    | diverge => exact .inl ⟨fun _ _ => rfl, by intro q hq; cases hq⟩

mutual
theorem happendAt1_stores {E : Env} {beg : Bool} : ∀ (p : Param) {h : Heap} {S : Nat → Prop} {v c : Ptr}, SelfContained h S → In S v → Stores h v c (happendAt1 E beg h v c p)
  | .slice qs, h, S, v, c, hS, hv => by unfold happendAt1; exact happendAt_stores qs hS hv
  | .str s, h, S, v, c, hS, hv => by unfold happendAt1; exact happendPath_stores hS hv
  | .int z, h, S, v, c, hS, hv => by unfold happendAt1; exact happendPath_stores hS hv
  | .uint z, h, S, v, c, hS, hv => by unfold happendAt1; exact happendPath_stores hS hv
  | .nil, h, S, v, c, hS, hv => by unfold happendAt1; exact happendPath_stores hS hv
  | .other, h, S, v, c, hS, hv => by unfold happendAt1; exact happendPath_stores hS hv
theorem happendAt_stores {E : Env} {beg : Bool} : ∀ (ps : List Param) {h : Heap} {S : Nat → Prop} {v c : Ptr}, SelfContained h S → In S v → Stores h v c (happendAt E beg h v c ps)
  | [], h, S, v, c, hS, hv => by
    unfold happendAt
    cases v with
    | none => exact stores_if stores_err stores_panic
    | some a =>
      cases hd : h[a]? with
      | none => simp only [hd]; exact stores_panic
      | some d =>
        simp only [hd]
        cases d with
        | arr xs => exact happendTo_stores hd
        | _ => exact stores_err
  | p :: rest, h, S, v, c, hS, hv => by
    unfold happendAt
    cases v with
    | none => exact stores_if stores_err stores_panic
    | some a =>
      exact stores_if stores_err (stores_if stores_err (stores_if (happendAt1_stores p hS hv) (happendPath_stores hS hv)))
end

end JV
