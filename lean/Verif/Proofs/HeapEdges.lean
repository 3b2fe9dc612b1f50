import Verif.Proofs.HeapCopy
import Verif.Proofs.HeapLow
/-!
Which pointers from object to object appear: storing a child adds pointers to that child and to new objects only. So a cycle appears only
when the call writes an object below the child it stores.
-/
namespace JV
open Spec

/-- the object at `y` holds a pointer to `b` -/
def Edge (h : Heap) (y b : Nat) : Prop := ∃ cell, h[y]? = some cell ∧ some b ∈ kids cell

/-- pointers that were not there before lead to `c`, or from an older object to a new one -/
def Edges (c : Ptr) (h h' : Heap) : Prop := h.length ≤ h'.length ∧ ∀ y b, Edge h' y b → some b = c ∨ Edge h y b ∨ (h.length ≤ b ∧ y < b)

theorem edges_refl (c : Ptr) (h : Heap) : Edges c h h := ⟨Nat.le_refl _, fun _ _ hb => .inr (.inl hb)⟩
theorem edges_trans {c : Ptr} {h h1 h2 : Heap} (a : Edges c h h1) (b : Edges c h1 h2) : Edges c h h2 := by
  refine ⟨Nat.le_trans a.1 b.1, fun y x hx => ?_⟩
  rcases b.2 y x hx with hx | hx | hx
  · exact .inl hx
  · exact a.2 y x hx
  · exact .inr (.inr ⟨by have := a.1; omega, hx.2⟩)

theorem edges_write {c : Ptr} {h : Heap} {a : Nat} {old new : Cell} (ha : h[a]? = some old)
    (hk : ∀ b, some b ∈ kids new → some b = c ∨ some b ∈ kids old ∨ (h.length ≤ b ∧ a < b)) : Edges c h (h.set a new) := by
  refine ⟨by simp, ?_⟩
  rintro y b ⟨cell, hc, hb⟩
  by_cases hy : a = y
  · subst hy
    rw [List.getElem?_set_self (List.getElem?_eq_some_iff.1 ha).1] at hc
    cases hc
    exact (hk b hb).imp id (Or.imp (fun hb => ⟨old, ha, hb⟩) id)
  · rw [List.getElem?_set_ne hy] at hc
    exact .inr (.inl ⟨cell, hc, hb⟩)

theorem edges_alloc {c : Ptr} {h : Heap} {cell : Cell} (hk : kids cell = []) : Edges c h (h ++ [cell]) := by
  refine ⟨by simp, ?_⟩
  rintro y b ⟨d, hd, hb⟩
  by_cases hy : y < h.length
  · rw [List.getElem?_append_left hy] at hd; exact .inr (.inl ⟨d, hd, hb⟩)
  · rw [List.getElem?_append_right (by omega)] at hd
    have := List.mem_of_getElem? hd
    rw [List.mem_singleton.1 this, hk] at hb
    cases hb

theorem reaches_edge {h : Heap} {a b c : Nat} (he : Edge h a b) (hr : Reaches h b c) : Reaches h a c := by
  obtain ⟨cell, h1, h2⟩ := he
  exact .step a b c cell h1 h2 hr

theorem belowItself_edge {h : Heap} {a : Nat} : BelowItself h a ↔ ∃ b, Edge h a b ∧ Reaches h b a :=
  ⟨fun ⟨b, cell, h1, h2, h3⟩ => ⟨b, ⟨cell, h1, h2⟩, h3⟩, fun ⟨b, ⟨cell, h1, h2⟩, h3⟩ => ⟨b, cell, h1, h2, h3⟩⟩

theorem edge_lt {h : Heap} {y b : Nat} (he : Edge h y b) : y < h.length := by
  obtain ⟨cell, h1, -⟩ := he
  exact (List.getElem?_eq_some_iff.1 h1).1

/-- below an unchanged value the ways are the old ones -/
theorem reaches_unchanged {h h' : Heap} {c : Ptr} (hs : SameBelow h h' c) {x y : Nat} (hx : Below h c x) (hr : Reaches h' x y) : Reaches h x y ∧ Below h c y := by
  induction hr with
  | refl a => exact ⟨.refl a, hx⟩
  | step a b y cell ha hb _ ih =>
    obtain ⟨z, rfl, hz⟩ := hx
    rw [hs z a rfl hz] at ha
    obtain ⟨h1, h2⟩ := ih ⟨z, rfl, reaches_snoc hz ha hb⟩
    exact ⟨.step a b y cell ha hb h1, h2⟩

theorem acyclic_edges {h h' : Heap} {c : Ptr} (hA : Acyclic h) (hE : Edges c h h') (hs : SameBelow h h' c) : Acyclic h' := by
  intro a ha
  obtain ⟨z, haz, hza⟩ := belowItself_edge.1 ha
  by_cases hB : Below h c a
  · obtain ⟨cell, hc, hb⟩ := haz
    obtain ⟨x, rfl, hx⟩ := hB
    rw [hs x a rfl hx] at hc
    obtain ⟨h1, -⟩ := reaches_unchanged hs ⟨x, rfl, reaches_snoc hx hc hb⟩ hza
    exact hA a ⟨z, cell, hc, hb, h1⟩
  · have key : ∀ x y, Reaches h' x y → ¬ Below h c y → Reaches h x y ∨ (h.length ≤ y ∧ x < y) := by
      intro x y hr
      induction hr with
      | refl x => intro _; exact .inl (.refl x)
      | step x w y cell hx hw hwy ih =>
        intro hy
        rcases hE.2 x w ⟨cell, hx, hw⟩ with h1 | h1 | h1
        · exact absurd (reaches_unchanged hs ⟨w, h1.symm, .refl w⟩ hwy).2 hy
        · rcases ih hy with h2 | h2
          · exact .inl (reaches_edge h1 h2)
          · exact .inr ⟨h2.1, by have := edge_lt h1; omega⟩
        · rcases ih hy with h2 | h2
          · cases h2 with
            | refl => exact .inr h1
            | step _ _ _ d hd _ _ => have := (List.getElem?_eq_some_iff.1 hd).1; omega
          · exact .inr ⟨h2.1, by omega⟩
    rcases key z a hza hB with h1 | h1
    · rcases hE.2 a z haz with h2 | h2 | h2
      · exact hB (reaches_unchanged hs ⟨z, h2.symm, .refl z⟩ hza).2
      · exact hA a (belowItself_edge.2 ⟨z, h2, h1⟩)
      · cases h1 with
        | refl => omega
        | step _ _ _ d hd _ _ => have := (List.getElem?_eq_some_iff.1 hd).1; omega
    · rcases hE.2 a z haz with h2 | h2 | h2
      · exact hB (reaches_unchanged hs ⟨z, h2.symm, .refl z⟩ hza).2
      · have := edge_lt h2; omega
      · omega

/-! ## the calls -/

def Adds (c : Ptr) (h : Heap) (r : Heap × R Ptr) : Prop := Edges c h r.1

theorem adds_same {c : Ptr} {h : Heap} {t : R Ptr} : Adds c h (h, t) := edges_refl c h
theorem adds_if {h : Heap} {c : Ptr} {b : Prop} [Decidable b] {x y : Heap × R Ptr} (hx : Adds c h x) (hy : Adds c h y) : Adds c h (if b then x else y) := by
  split
  · exact hx
  · exact hy
theorem adds_then {c : Ptr} {h : Heap} {r : Heap × R Ptr} {f : Heap → Ptr → Heap × R Ptr} (h1 : Adds c h r) (h2 : ∀ h' q, r = (h', .ok q) → Edges c h h' → Adds c h' (f h' q)) : Adds c h (hthen r f) := by
  obtain ⟨h', t⟩ := r
  cases t with
  | ok q => exact edges_trans h1 (h2 h' q rfl h1)
  | _ => exact h1

theorem hassign_kid {e : HEnt} {kvs : List HEnt} {p : Ptr} (h : p ∈ (hassign e kvs).map HEnt.v) : p = e.v ∨ p ∈ kvs.map HEnt.v := by
  induction kvs with
  | nil => simp [hassign] at h; exact .inl h
  | cons x xs ih =>
    simp only [hassign] at h
    split at h
    · simp only [List.map_cons, List.mem_cons] at h ⊢
      rcases h with h | h
      · exact .inl h
      · exact .inr (.inr h)
    · simp only [List.map_cons, List.mem_cons] at h ⊢
      rcases h with h | h
      · exact .inr (.inl h)
      · exact (ih h).imp id .inr

theorem hsetKey_adds {E : Env} {h : Heap} {a : Nat} {k : Bytes} {c : Ptr} : Adds c h (hsetKey E h a k c) := by
  unfold hsetKey
  split
  · next n kvs low ha => exact edges_write ha fun b hb => (hassign_kid hb).imp id .inl
  · exact adds_same

theorem hatLast_adds {E : Env} {h : Heap} {v c : Ptr} {p : Param} : Adds c h (hatLast E h v c p) := by
  cases v with
  | none => exact adds_same
  | some a =>
    simp only [hatLast]
    cases hc : h[a]? with
    | none => exact adds_same
    | some d =>
      cases d with
      | obj n kvs low =>
        simp only
        cases anyToString p with
        | ok k => exact hsetKey_adds
        | _ => exact adds_same
      | arr xs =>
        simp only
        cases anyToInt p with
        | ok pos =>
          simp only
          cases hx : setAtIndex xs c pos with
          | ok q =>
            obtain ⟨ys, i⟩ := q
            exact edges_write hc fun b hb => (setAtIndex_mem hx _ hb).elim (fun h => .inr (.inl h)) .inl
          | _ => exact adds_same
        | _ => exact adds_same
      | _ => exact adds_same

theorem new_adds {E : Env} {h : Heap} {a : Nat} (hla : a < h.length) {c : Ptr} {rest : List Param} {cell : Cell} (hcell : kids cell = [])
    (ih : Adds c (h ++ [cell]) (hsetAt E (h ++ [cell]) (some h.length) c rest))
    {link : Heap → Heap × R Ptr} (hl : ∀ h', ∀ y b, Edge (link h').1 y b → Edge h' y b ∨ (y = a ∧ b = h.length)) (hlen : ∀ h', h'.length ≤ (link h').1.length) :
    Adds c h (hthen (hsetAt E (h ++ [cell]) (some h.length) c rest) fun h' c => hthen (link h') fun h' _ => (h', .ok c)) := by
  have h0 : Adds c h (hsetAt E (h ++ [cell]) (some h.length) c rest) := edges_trans (edges_alloc hcell) ih
  generalize hsetAt E (h ++ [cell]) (some h.length) c rest = r at h0
  obtain ⟨h', t⟩ := r
  have hlk : Edges c h (link h').1 := by
    refine ⟨Nat.le_trans h0.1 (hlen h'), fun y b he => ?_⟩
    rcases hl h' y b he with he | ⟨rfl, rfl⟩
    · exact h0.2 y b he
    · exact .inr (.inr ⟨Nat.le_refl _, hla⟩)
  cases t with
  | ok q =>
    simp only [hthen]
    cases hr : link h' with
    | mk h2 t2 =>
      rw [hr] at hlk
      cases t2 <;> exact hlk
  | _ => exact h0

theorem hsetKey_link {E : Env} {h' : Heap} {a N : Nat} {k : Bytes} (y b : Nat) (he : Edge (hsetKey E h' a k (some N)).1 y b) : Edge h' y b ∨ (y = a ∧ b = N) := by
  unfold hsetKey at he
  split at he
  · next n kvs low ha =>
    obtain ⟨cell, h1, h2⟩ := he
    by_cases hy : a = y
    · subst hy
      rw [List.getElem?_set_self (List.getElem?_eq_some_iff.1 ha).1] at h1
      cases h1
      rcases hassign_kid h2 with h2 | h2
      · exact .inr ⟨rfl, by simpa using h2⟩
      · exact .inl ⟨_, ha, h2⟩
    · rw [List.getElem?_set_ne hy] at h1
      exact .inl ⟨cell, h1, h2⟩
  · exact .inl he
theorem hpush_link {h' : Heap} {a N : Nat} (y b : Nat) (he : Edge (hpush h' a (some N)).1 y b) : Edge h' y b ∨ (y = a ∧ b = N) := by
  unfold hpush at he
  split at he
  · next xs ha =>
    obtain ⟨cell, h1, h2⟩ := he
    by_cases hy : a = y
    · subst hy
      rw [List.getElem?_set_self (List.getElem?_eq_some_iff.1 ha).1] at h1
      cases h1
      rcases List.mem_append.1 h2 with h2 | h2
      · exact .inl ⟨_, ha, h2⟩
      · exact .inr ⟨rfl, by simpa using h2⟩
    · rw [List.getElem?_set_ne hy] at h1
      exact .inl ⟨cell, h1, h2⟩
  · exact .inl he
theorem hsetKey_len {E : Env} {h' : Heap} {a : Nat} {k : Bytes} {c : Ptr} : h'.length ≤ (hsetKey E h' a k c).1.length := by
  unfold hsetKey; split <;> simp
theorem hpush_len {h' : Heap} {a : Nat} {c : Ptr} : h'.length ≤ (hpush h' a c).1.length := by
  unfold hpush; split <;> simp

theorem hset_two_adds {E : Env} {h : Heap} {v c : Ptr} (p next : Param) (rest : List Param)
    (ih : ∀ {h : Heap} {v c : Ptr}, Adds c h (hsetAt E h v c (next :: rest))) :
    Adds c h (hsetAt E h v c (p :: next :: rest)) := by
  conv => arg 3; unfold hsetAt
  simp only
  refine adds_if adds_same (adds_if adds_same ?_)
  cases v with
  | none => exact adds_same
  | some a =>
    cases hd : h[a]? with
    | none => simp only [hd]; exact adds_same
    | some d =>
      simp only [hd]
      have hla := (List.getElem?_eq_some_iff.1 hd).1
      cases d with
      | obj n kvs low =>
        simp only
        cases anyToString p with
        | ok k =>
          simp only
          cases hl : hlookup k kvs with
          | some e => exact ih
          | none =>
            simp only
            cases hn : hnewContainer next with
            | ok cell => exact new_adds hla (newContainer_kids hn) ih (link := fun h' => hsetKey E h' a k (some h.length)) (fun h' => hsetKey_link) (fun h' => hsetKey_len)
            | _ => exact adds_same
        | _ => exact adds_same
      | arr xs =>
        simp only
        cases anyToInt p with
        | ok pos =>
          simp only
          split
          · cases hn : hnewContainer next with
            | ok cell => exact new_adds hla (newContainer_kids hn) ih (link := fun h' => hpush h' a (some h.length)) (fun h' => hpush_link) (fun h' => hpush_len)
            | _ => exact adds_same
          · cases hx : xs[(posForRead xs.length pos).toNat]? with
            | none => exact adds_same
            | some q => exact ih
        | _ => exact adds_same
      | _ => exact adds_same

mutual
theorem hsetAt1_adds {E : Env} : ∀ (p : Param) {h : Heap} {v c : Ptr}, Adds c h (hsetAt1 E h v c p)
  | .slice qs, h, v, c => by
    unfold hsetAt1
    exact adds_if (adds_if adds_same hatLast_adds) (hsetAt_adds qs)
  | .str s, h, v, c => by unfold hsetAt1; exact adds_if adds_same hatLast_adds
  | .int z, h, v, c => by unfold hsetAt1; exact adds_if adds_same hatLast_adds
  | .uint z, h, v, c => by unfold hsetAt1; exact adds_if adds_same hatLast_adds
  | .nil, h, v, c => by unfold hsetAt1; exact adds_if adds_same hatLast_adds
  | .other, h, v, c => by unfold hsetAt1; exact adds_if adds_same hatLast_adds
theorem hsetAt_adds {E : Env} : ∀ (ps : List Param) {h : Heap} {v c : Ptr}, Adds c h (hsetAt E h v c ps)
  | [], h, v, c => by unfold hsetAt; exact adds_same
  | [p], h, v, c => by unfold hsetAt; exact hsetAt1_adds p
  | p :: next :: rest, h, v, c => hset_two_adds p next rest (hsetAt_adds (next :: rest))
end

theorem hgetArray_adds {E : Env} {h : Heap} {v c : Ptr} {ps : List Param} : Adds c h (hgetArray E h v ps) := by
  unfold Adds
  rw [hgetArray_finds.1]
  exact edges_refl c h

theorem insertToArr_kid {xs ys : List Ptr} {i : Nat} {c : Ptr} (hi : i ≤ xs.length) (h : insertToArr xs i c = .ok ys) {p : Ptr} (hp : p ∈ ys) : p = c ∨ p ∈ xs := by
  rw [insertToArr_eq xs i c hi] at h
  cases h
  simp only [List.mem_append, List.mem_cons] at hp
  rcases hp with hp | hp | hp
  · exact .inr (List.mem_of_mem_take hp)
  · exact .inl hp
  · exact .inr (List.mem_of_mem_drop hp)

theorem hinsertLast_adds {after : Bool} {h : Heap} {v c : Ptr} {p : Param} : Adds c h (hinsertLast after h v c p) := by
  cases v with
  | none => exact adds_if adds_same adds_same
  | some a =>
    simp only [hinsertLast]
    cases hd : h[a]? with
    | none => exact adds_same
    | some d =>
    cases d with
    | arr xs =>
      simp only
      cases anyToInt p with
      | ok pos =>
        simp only
        by_cases h1 : (if after = true then posForInsertAfter xs.length pos else (posForInsertBefore xs.length pos, false)).1 < 0
        · rw [if_pos h1]; exact adds_same
        · rw [if_neg h1]
          by_cases h2 : (if after = true then posForInsertAfter xs.length pos else (posForInsertBefore xs.length pos, false)).2 = true
          · rw [if_pos h2]
            refine edges_write hd fun b hb => ?_
            rcases List.mem_append.1 hb with hb | hb
            · exact .inr (.inl hb)
            · exact .inl (List.mem_singleton.1 hb)
          · rw [if_neg h2]
            have hb : (if after = true then posForInsertAfter xs.length pos else (posForInsertBefore xs.length pos, false)).1.toNat ≤ xs.length := by
              cases after with
              | true => exact posAfter_bound h1 (by simpa using h2)
              | false => exact posBefore_bound h1
            cases hi : insertToArr xs (if after = true then posForInsertAfter xs.length pos else (posForInsertBefore xs.length pos, false)).1.toNat c with
            | ok ys => exact edges_write hd fun b hb' => (insertToArr_kid hb hi hb').imp id .inl
            | _ => exact adds_same
      | _ => exact adds_same
    | _ => exact adds_same

mutual
theorem hinsertAt1_adds {E : Env} {after : Bool} : ∀ (p : Param) {h : Heap} {v c : Ptr}, Adds c h (hinsertAt1 E after h v c p)
  | .slice qs, h, v, c => by
    unfold hinsertAt1
    exact adds_if hinsertLast_adds (hinsertAt_adds qs [])
  | .str s, h, v, c => by unfold hinsertAt1; exact hinsertLast_adds
  | .int z, h, v, c => by unfold hinsertAt1; exact hinsertLast_adds
  | .uint z, h, v, c => by unfold hinsertAt1; exact hinsertLast_adds
  | .nil, h, v, c => by unfold hinsertAt1; exact hinsertLast_adds
  | .other, h, v, c => by unfold hinsertAt1; exact hinsertLast_adds
theorem hinsertAt_adds {E : Env} {after : Bool} : ∀ (ps pre : List Param) {h : Heap} {v c : Ptr}, Adds c h (hinsertAt E after h v c pre ps)
  | [], pre, h, v, c => by unfold hinsertAt; exact adds_same
  | p :: rest, pre, h, v, c => by
    unfold hinsertAt
    refine adds_if (hinsertAt_adds rest _) ?_
    cases pre with
    | nil => exact hinsertAt1_adds p
    | cons first pre =>
      refine adds_if adds_same ?_
      cases v with
      | none => exact adds_if adds_same adds_same
      | some a => exact adds_if adds_same (adds_then hgetArray_adds fun h' q _ _ => hinsertAt1_adds p)
end

theorem happendTo_adds {beg : Bool} {h : Heap} {v c : Ptr} : Adds c h (happendTo beg h v c) := by
  cases v with
  | none => exact adds_same
  | some a =>
    simp only [happendTo]
    cases hd : h[a]? with
    | none => exact adds_same
    | some d =>
      cases d with
      | arr xs =>
        simp only
        split
        · cases hi : insertToArr xs 0 c with
          | ok ys => exact edges_write hd fun b hb' => (insertToArr_kid (Nat.zero_le _) hi hb').imp id .inl
          | _ => exact adds_same
        · refine edges_write hd fun b hb => ?_
          rcases List.mem_append.1 hb with hb | hb
          · exact .inr (.inl hb)
          · exact .inl (List.mem_singleton.1 hb)
      | _ => exact adds_same

theorem happendTo_frame {beg : Bool} {h : Heap} {a : Nat} {c : Ptr} {y : Nat} (hy : y ≠ a) : (happendTo beg h (some a) c).1[y]? = h[y]? := by
  simp only [happendTo]
  cases hd : h[a]? with
  | none => rfl
  | some d =>
    cases d with
    | arr xs =>
      simp only
      split
      · cases hi : insertToArr xs 0 c with
        | ok ys => exact List.getElem?_set_ne (Ne.symm hy)
        | _ => rfl
      · exact List.getElem?_set_ne (Ne.symm hy)
    | _ => rfl

/-- what a call that stores `c` does to the absence of cycles -/
def Safe (c : Ptr) (h : Heap) (r : Heap × R Ptr) : Prop := Acyclic h → SameBelow h r.1 c → Acyclic r.1

theorem safe_adds {c : Ptr} {h : Heap} {r : Heap × R Ptr} (ha : Adds c h r) : Safe c h r := fun hA hs => acyclic_edges hA ha hs

theorem safe_if {h : Heap} {c : Ptr} {b : Prop} [Decidable b] {x y : Heap × R Ptr} (hx : Safe c h x) (hy : Safe c h y) : Safe c h (if b then x else y) := by
  split
  · exact hx
  · exact hy

theorem happendPath_safe {E : Env} {beg : Bool} {h : Heap} (hV : Valid h) {v c : Ptr} (hv : ValidPtr h v) (hc : ValidPtr h c) {ps : List Param} :
    Safe c h (happendPath E beg h v c ps) := by
  obtain ⟨h1, h2⟩ := hgetArray_finds (E := E) (h := h) (v := v) (ps := ps)
  unfold happendPath
  cases hr : hgetArray E h v ps with
  | mk h' t =>
    rw [hr] at h1 h2
    simp only at h1 h2
    subst h1
    cases t with
    | ok q => exact safe_adds happendTo_adds
    | err e =>
      by_cases he : e = .notFound
      · subst he
        simp only
        intro hA hs
        have hadds := hsetAt_adds (E := E) ps (h := h' ++ [.arr []]) (v := v) (c := some h'.length)
        have hset := hsetAt_stores (E := E) ps (h := h' ++ [.arr []]) (v := v) (c := some h'.length)
        have hA1 : Acyclic (h' ++ [.arr []]) := acyclic_edges (c := none) hA (edges_alloc rfl) (by intro a b hab; cases hab)
        have hleaf : ∀ b, Reaches (h' ++ [.arr []]) h'.length b → b = h'.length := by
          intro b hb
          cases hb with
          | refl => rfl
          | step _ x _ cl hcl hx _ => simp at hcl; subst hcl; cases hx
        cases hr2 : hsetAt E (h' ++ [.arr []]) v (some h'.length) ps with
        | mk h3 t3 =>
          rw [hr2] at hadds hset hs
          have hN : h3[h'.length]? = (h' ++ [Cell.arr []])[h'.length]? := by
            rcases hset with ⟨h4, -⟩ | ⟨-, a, d, rfl, had, -, hf, -⟩
            · exact h4 _ (by simp)
            · have hfr : ∀ y, y < h'.length → (h' ++ [Cell.arr []])[y]? = h'[y]? := fun y hy => List.getElem?_append_left hy
              have hdl : d < h'.length := reaches_in hV (hv a rfl) (reaches_back hV hfr (hv a rfl) had)
              exact hf _ (by simp) (by omega)
          have hA3 : Acyclic h3 := acyclic_edges hA1 hadds (by
            intro a b hab hb
            cases hab
            rw [hleaf b hb]; exact hN)
          cases t3 with
          | ok q =>
            simp only [hthen] at hs ⊢
            rcases hset with ⟨-, h5⟩ | ⟨h4, -⟩
            · exact absurd rfl (h5 q)
            simp only [R.ok.injEq] at h4
            subst h4
            refine acyclic_edges hA3 happendTo_adds (c := c) ?_
            have hs3 : SameBelow h' h3 c := by
              intro a b hab hb
              have hbl : b < h'.length := reaches_in hV (hc a hab) hb
              rw [← hs a b hab hb, happendTo_frame (by omega)]
            intro a b hab hb
            obtain ⟨h6, -⟩ := reaches_unchanged hs3 ⟨a, hab, .refl a⟩ hb
            rw [hs a b hab h6, hs3 a b hab h6]
          | _ => exact hA3
      · cases e <;> first | exact safe_adds adds_same | exact absurd rfl he
    | panic => exact safe_adds adds_same
    | diverge => exact safe_adds adds_same

mutual
theorem happendAt1_safe {E : Env} {beg : Bool} : ∀ (p : Param) {h : Heap} {v c : Ptr}, Valid h → ValidPtr h v → ValidPtr h c → Safe c h (happendAt1 E beg h v c p)
  | .slice qs, h, v, c, hV, hv, hc => by unfold happendAt1; exact happendAt_safe qs hV hv hc
  | .str s, h, v, c, hV, hv, hc => by unfold happendAt1; exact happendPath_safe hV hv hc
  | .int z, h, v, c, hV, hv, hc => by unfold happendAt1; exact happendPath_safe hV hv hc
  | .uint z, h, v, c, hV, hv, hc => by unfold happendAt1; exact happendPath_safe hV hv hc
  | .nil, h, v, c, hV, hv, hc => by unfold happendAt1; exact happendPath_safe hV hv hc
  | .other, h, v, c, hV, hv, hc => by unfold happendAt1; exact happendPath_safe hV hv hc
theorem happendAt_safe {E : Env} {beg : Bool} : ∀ (ps : List Param) {h : Heap} {v c : Ptr}, Valid h → ValidPtr h v → ValidPtr h c → Safe c h (happendAt E beg h v c ps)
  | [], h, v, c, hV, hv, hc => by
    unfold happendAt
    cases v with
    | none => exact safe_if (safe_adds adds_same) (safe_adds adds_same)
    | some a =>
      cases hd : h[a]? with
      | none => simp only [hd]; exact safe_adds adds_same
      | some d =>
        simp only [hd]
        cases d with
        | arr xs => exact safe_adds happendTo_adds
        | _ => exact safe_adds adds_same
  | p :: rest, h, v, c, hV, hv, hc => by
    unfold happendAt
    cases v with
    | none => exact safe_if (safe_adds adds_same) (safe_adds adds_same)
    | some a =>
      exact safe_if (safe_adds adds_same) (safe_if (safe_adds adds_same) (safe_if (happendAt1_safe p hV hv hc) (happendPath_safe hV hv hc)))
end

theorem put_safe {E : Env} (k : Put) (ps : List Param) {h : Heap} (hV : Valid h) {v c : Ptr} (hv : ValidPtr h v) (hc : ValidPtr h c) : Safe c h (k.onHeap E h v c ps) := by
  cases k with
  | set => exact safe_adds (hsetAt_adds ps)
  | insert after => exact safe_adds (hinsertAt_adds ps [])
  | append beg => exact happendAt_safe ps hV hv hc

/-! ## calls that store nothing -/

theorem withoutLow_kids (c : Cell) : kids (withoutLow c) = kids c := by cases c <;> rfl

theorem edges_low {h h' : Heap} {c : Ptr} (hl : LowOnly h h') : Edges c h h' := by
  refine ⟨by have := congrArg List.length hl; simp at this; omega, ?_⟩
  rintro y b ⟨cell, h1, h2⟩
  have := lowOnly_get hl y
  rw [h1] at this
  cases hc : h[y]? with
  | none => rw [hc] at this; cases this
  | some d =>
    rw [hc] at this
    simp only [Option.map_some, Option.some.injEq] at this
    exact .inr (.inl ⟨d, hc, by rw [← withoutLow_kids, ← this, withoutLow_kids]; exact h2⟩)

theorem hdeleteLast_adds {E : Env} {cl : Bool} {h : Heap} {v c : Ptr} {p : Param} : Adds c h (hdeleteLast E cl h v p) := by
  cases v with
  | none => exact adds_same
  | some a =>
    simp only [hdeleteLast]
    cases hd : h[a]? with
    | none => exact adds_same
    | some d =>
    cases d with
    | obj n kvs low =>
      simp only
      cases anyToString p with
      | ok key =>
        simp only
        cases hf : findKey E cl (keysOf kvs) low key with
        | mk low' k =>
          cases k with
          | none => exact edges_write hd fun b hb => .inr (.inl hb)
          | some k =>
            refine edges_write hd fun b hb => .inr (.inl ?_)
            obtain ⟨x, hx, hxb⟩ := List.mem_map.1 hb
            exact List.mem_map.2 ⟨x, mem_herase hx, hxb⟩
      | _ => exact adds_same
    | arr xs =>
      simp only
      cases anyToInt p with
      | ok pos =>
        simp only
        refine adds_if adds_same ?_
        by_cases hlt : (posForRead xs.length pos).toNat < xs.length
        · rw [deleteInArr_eq _ _ hlt]
          exact edges_write hd fun b hb => .inr (.inl ((List.eraseIdx_sublist xs _).subset hb))
        · rw [show deleteInArr xs (posForRead xs.length pos).toNat = .panic by simp [deleteInArr, hlt]]
          exact adds_same
      | _ => exact adds_same
    | _ => exact adds_same

mutual
theorem hdeleteAt1_adds {E : Env} {cl : Bool} : ∀ (p : Param) {h : Heap} {v c : Ptr}, Adds c h (hdeleteAt1 E cl h v p)
  | .slice qs, h, v, c => by
    unfold hdeleteAt1
    exact adds_if hdeleteLast_adds (hdeleteAt_adds qs [])
  | .str s, h, v, c => by unfold hdeleteAt1; exact hdeleteLast_adds
  | .int z, h, v, c => by unfold hdeleteAt1; exact hdeleteLast_adds
  | .uint z, h, v, c => by unfold hdeleteAt1; exact hdeleteLast_adds
  | .nil, h, v, c => by unfold hdeleteAt1; exact hdeleteLast_adds
  | .other, h, v, c => by unfold hdeleteAt1; exact hdeleteLast_adds
theorem hdeleteAt_adds {E : Env} {cl : Bool} : ∀ (ps pre : List Param) {h : Heap} {v c : Ptr}, Adds c h (hdeleteAt E cl h v pre ps)
  | [], pre, h, v, c => by unfold hdeleteAt; exact adds_same
  | p :: rest, pre, h, v, c => by
    unfold hdeleteAt
    refine adds_if (hdeleteAt_adds rest _) ?_
    cases pre with
    | nil => exact hdeleteAt1_adds p
    | cons first pre =>
      exact adds_if adds_same (adds_then (edges_low (hget_got _).1) fun h' q _ _ => hdeleteAt1_adds p)
end

theorem hreorder_adds {h : Heap} {v c : Ptr} {ys : List Ptr} : Adds c h (hreorder h v ys) := by
  cases v with
  | none => exact adds_same
  | some a =>
    simp only [hreorder]
    cases hd : h[a]? with
    | none => exact adds_same
    | some d =>
      cases d with
      | arr xs =>
        by_cases hp : xs.isPerm ys = true
        · simp only [hp, if_true]
          exact edges_write hd fun b hb => .inr (.inl ((List.isPerm_iff.1 hp).mem_iff.2 hb))
        · simp only [hp]; exact adds_same
      | _ => exact adds_same

/-! ## new objects: built from the leaves up -/

/-- nothing old changes, and new objects point to older ones or to new ones that came first -/
def Down (h h' : Heap) : Prop := h.length ≤ h'.length ∧ (∀ y, y < h.length → h'[y]? = h[y]?) ∧ ∀ y b, h.length ≤ y → Edge h' y b → b < y

theorem down_refl (h : Heap) : Down h h := ⟨Nat.le_refl _, fun _ _ => rfl, fun y b hy he => by have := edge_lt he; omega⟩

theorem down_trans {h h1 h2 : Heap} (a : Down h h1) (b : Down h1 h2) : Down h h2 := by
  refine ⟨Nat.le_trans a.1 b.1, fun y hy => ?_, fun y x hy he => ?_⟩
  · rw [b.2.1 y (by have := a.1; omega), a.2.1 y hy]
  · by_cases hlt : y < h1.length
    · obtain ⟨c, h3, h4⟩ := he
      rw [b.2.1 y hlt] at h3
      exact a.2.2 y x hy ⟨c, h3, h4⟩
    · exact b.2.2 y x (by omega) he

theorem down_alloc {h : Heap} {cell : Cell} (hk : ∀ b, some b ∈ kids cell → b < h.length) : Down h (h ++ [cell]) := by
  refine ⟨by simp, fun y hy => List.getElem?_append_left hy, ?_⟩
  rintro y b hy ⟨c, h1, h2⟩
  rw [List.getElem?_append_right hy] at h1
  have h3 := List.mem_of_getElem? h1
  rw [List.mem_singleton.1 h3] at h2
  have := hk b h2
  omega

theorem acyclic_down {h h' : Heap} (hA : Acyclic h) (hV : Valid h) (hd : Down h h') : Acyclic h' := by
  have hcl : ∀ y b, Reaches h' y b → y < h.length → Reaches h y b ∧ b < h.length := by
    intro y b hr hy
    have := reaches_back hV (h' := h') (fun y hy => hd.2.1 y hy) (b := b) hy hr
    exact ⟨this, reaches_in hV hy this⟩
  intro a ha
  obtain ⟨z, haz, hza⟩ := belowItself_edge.1 ha
  by_cases hlt : a < h.length
  · obtain ⟨cell, h1, h2⟩ := haz
    rw [hd.2.1 a hlt] at h1
    have hz : z < h.length := reaches_in hV hlt (.step a z z cell h1 h2 (.refl z))
    exact hA a ⟨z, cell, h1, h2, (hcl z a hza hz).1⟩
  · have key : ∀ x y, Reaches h' x y → h.length ≤ y → y ≤ x := by
      intro x y hr
      induction hr with
      | refl x => intro _; omega
      | step x w y cell hx hw hwy ih =>
        intro hy
        have h1 := ih hy
        by_cases hxl : x < h.length
        · have := (hcl x y (.step x w y cell hx hw hwy) hxl).2
          omega
        · have := hd.2.2 x w (by omega) ⟨cell, hx, hw⟩
          omega
    have h1 := key z a hza (by omega)
    have h2 := hd.2.2 a z (by omega) haz
    omega

def DownR (h : Heap) (r : Heap × R Ptr) : Prop := Down h r.1 ∧ ∀ q, r.2 = .ok q → ValidPtr r.1 q

theorem downR_alloc {h : Heap} {cell : Cell} (hk : ∀ b, some b ∈ kids cell → b < h.length) : DownR h (h ++ [cell], .ok (some h.length)) :=
  ⟨down_alloc hk, by intro q hq a ha; simp only [R.ok.injEq] at hq; subst hq; cases ha; simp⟩

theorem downR_fail {h h' : Heap} {t : R Ptr} (hd : Down h h') (ht : ∀ q, t ≠ .ok q) : DownR h (h', t) := ⟨hd, fun q hq => absurd hq (ht q)⟩

theorem hcopyList_down {f : Heap → Ptr → Heap × R Ptr} (hf : ∀ h p, DownR h (f h p)) : ∀ (ps : List Ptr) (h : Heap),
    Down h (hcopyList f h ps).1 ∧ ∀ cs, (hcopyList f h ps).2 = .ok cs → ∀ q ∈ cs, ValidPtr (hcopyList f h ps).1 q
  | [], h => ⟨down_refl h, by intro cs hcs; cases hcs; intro q hq; cases hq⟩
  | p :: ps, h => by
    have h1 := hf h p
    unfold hcopyList
    cases hr : f h p with
    | mk h' t =>
      rw [hr] at h1
      cases t with
      | ok c =>
        have h2 := hcopyList_down hf ps h'
        simp only
        cases hr2 : hcopyList f h' ps with
        | mk h'' t2 =>
          rw [hr2] at h2
          cases t2 with
          | ok cs =>
            refine ⟨down_trans h1.1 h2.1, ?_⟩
            intro cs' hcs q hq
            cases hcs
            rcases List.mem_cons.1 hq with rfl | hq
            · intro a ha
              have := h1.2 q rfl a ha
              have := h2.1.1
              simp only at *
              omega
            · exact h2.2 cs rfl q hq
          | _ => exact ⟨down_trans h1.1 h2.1, by intro cs hcs; cases hcs⟩
      | _ => exact ⟨h1.1, by intro cs hcs; cases hcs⟩

theorem withValues_mem {kvs : List HEnt} {cs : List Ptr} {p : Ptr} (h : p ∈ (withValues kvs cs).map HEnt.v) : p ∈ cs := by
  induction kvs generalizing cs with
  | nil => cases cs <;> simp [withValues] at h
  | cons e es ih =>
    cases cs with
    | nil => simp [withValues] at h
    | cons c cs =>
      simp only [withValues, List.map_cons, List.mem_cons] at h ⊢
      exact h.imp id ih

theorem hdeepCopy_down : ∀ (n : Nat) (h : Heap) (p : Ptr), DownR h (hdeepCopy n h p)
  | 0, h, p => downR_fail (down_refl h) (by simp)
  | n + 1, h, none => downR_alloc (by simp [kids])
  | n + 1, h, some a => by
    unfold hdeepCopy
    simp only
    cases hd : h[a]? with
    | none => exact downR_fail (down_refl h) (by simp)
    | some d =>
      cases d with
      | arr xs =>
        simp only
        have h1 := hcopyList_down (hdeepCopy_down n) xs h
        cases hr : hcopyList (hdeepCopy n) h xs with
        | mk h' t =>
          rw [hr] at h1
          cases t with
          | ok cs =>
            have h2 : DownR h' (h' ++ [.arr cs], .ok (some h'.length)) := downR_alloc fun b hb => h1.2 cs rfl _ hb b rfl
            exact ⟨down_trans h1.1 h2.1, h2.2⟩
          | _ => exact downR_fail h1.1 (by simp)
      | obj m kvs low =>
        simp only
        have h1 := hcopyList_down (hdeepCopy_down n) (kvs.map HEnt.v) h
        cases hr : hcopyList (hdeepCopy n) h (kvs.map HEnt.v) with
        | mk h' t =>
          rw [hr] at h1
          cases t with
          | ok cs =>
            have h2 : DownR h' (h' ++ [.obj m (withValues kvs cs) none], .ok (some h'.length)) := downR_alloc fun b hb => h1.2 cs rfl _ (withValues_mem hb) b rfl
            exact ⟨down_trans h1.1 h2.1, h2.2⟩
          | _ => exact downR_fail h1.1 (by simp)
      | notExist => exact downR_alloc (by simp [kids])
      | str s => exact downR_alloc (by simp [kids])
      | num s x => exact downR_alloc (by simp [kids])
      | bool b => exact downR_alloc (by simp [kids])
      | null => exact downR_alloc (by simp [kids])

theorem validPtr_mono {h h' : Heap} (hl : h.length ≤ h'.length) {p : Ptr} (hp : ValidPtr h p) : ValidPtr h' p := fun a ha => Nat.lt_of_lt_of_le (hp a ha) hl

def DownP (h : Heap) (r : Heap × Ptr) : Prop := Down h r.1 ∧ ValidPtr r.1 r.2

theorem downP_alloc {h : Heap} {cell : Cell} (hk : ∀ b, some b ∈ kids cell → b < h.length) : DownP h (halloc h cell) :=
  ⟨down_alloc hk, by intro a ha; simp only [halloc] at ha ⊢; cases ha; simp⟩

mutual
theorem hbuild_down : ∀ (v : V) (h : Heap), DownP h (hbuild h v)
  | .nilp, h => ⟨down_refl h, by intro a ha; cases ha⟩
  | .notExist, h => downP_alloc (by simp [kids])
  | .str s, h => downP_alloc (by simp [kids])
  | .num s n, h => downP_alloc (by simp [kids])
  | .bool b, h => downP_alloc (by simp [kids])
  | .null, h => downP_alloc (by simp [kids])
  | .arr xs, h => by
    have h1 := hbuilds_down xs h
    have h2 : DownP (hbuilds h xs).1 (halloc (hbuilds h xs).1 (.arr (hbuilds h xs).2)) := downP_alloc fun b hb => h1.2 _ hb b rfl
    exact ⟨down_trans h1.1 h2.1, h2.2⟩
  | .obj n kvs low, h => by
    have h1 := hbuildEnts_down kvs h
    have h2 : DownP (hbuildEnts h kvs).1 (halloc (hbuildEnts h kvs).1 (.obj n (hbuildEnts h kvs).2 low)) := downP_alloc fun b hb => h1.2 _ hb b rfl
    exact ⟨down_trans h1.1 h2.1, h2.2⟩
theorem hbuilds_down : ∀ (vs : List V) (h : Heap), Down h (hbuilds h vs).1 ∧ ∀ q ∈ (hbuilds h vs).2, ValidPtr (hbuilds h vs).1 q
  | [], h => ⟨down_refl h, by intro q hq; cases hq⟩
  | v :: vs, h => by
    have h1 := hbuild_down v h
    have h2 := hbuilds_down vs (hbuild h v).1
    refine ⟨down_trans h1.1 h2.1, ?_⟩
    intro q hq
    rcases List.mem_cons.1 hq with rfl | hq
    · exact validPtr_mono h2.1.1 h1.2
    · exact h2.2 q hq
theorem hbuildEnts_down : ∀ (es : List Ent) (h : Heap), Down h (hbuildEnts h es).1 ∧ ∀ q ∈ (hbuildEnts h es).2.map HEnt.v, ValidPtr (hbuildEnts h es).1 q
  | [], h => ⟨down_refl h, by intro q hq; cases hq⟩
  | .mk k i v :: es, h => by
    have h1 := hbuild_down v h
    have h2 := hbuildEnts_down es (hbuild h v).1
    refine ⟨down_trans h1.1 h2.1, ?_⟩
    intro q hq
    rcases List.mem_cons.1 hq with rfl | hq
    · exact validPtr_mono h2.1.1 h1.2
    · exact h2.2 q hq
end

/-! ## UnmarshalJSON -/

/-- the fields of an old object are replaced by those of a new one -/
theorem acyclic_overwrite {h : Heap} (hA : Acyclic h) (hV : Valid h) {v : Ptr} (hv : ValidPtr h v) (t : V) : Acyclic (hoverwrite h v t).1 := by
  have hA1 := acyclic_down hA hV (hbuild_down t h).1
  unfold hoverwrite
  split
  · rename_i a n hn
    split
    · rename_i c hc
      obtain ⟨hw, hin⟩ := hbuild_within t h
      generalize (hbuild h t).1 = h1 at hA1 hc hw hin
      have ha : a < h.length := hv a rfl
      have hal : a < h1.length := by have := hw.len; omega
      have hcl : ∀ x y, h.length ≤ x → Edge h1 x y → h.length ≤ y := by
        rintro x y hx ⟨cell, h2, h3⟩
        have hxl := (List.getElem?_eq_some_iff.1 h2).1
        have := region_kid hw.closed (.inr ⟨hx, hxl⟩) h2 _ h3 y rfl
        exact (this.resolve_left (fun h => h)).1
      have hkid : ∀ y, some y ∈ kids c → h.length ≤ y := fun y hy => hcl n y ((hin n hn).resolve_left (fun h => h)).1 ⟨c, hc, hy⟩
      have hedge : ∀ x y, Edge (h1.set a c) x y → x ≠ a → Edge h1 x y := by
        rintro x y ⟨cell, h2, h3⟩ hx
        rw [List.getElem?_set_ne (Ne.symm hx)] at h2
        exact ⟨cell, h2, h3⟩
      have hfrom : ∀ y, Edge (h1.set a c) a y → h.length ≤ y := by
        rintro y ⟨cell, h2, h3⟩
        rw [List.getElem?_set_self hal] at h2
        cases h2
        exact hkid y h3
      have hnew : ∀ x y, Reaches (h1.set a c) x y → h.length ≤ x → h.length ≤ y ∧ Reaches h1 x y := by
        intro x y hr
        induction hr with
        | refl x => exact fun hx => ⟨hx, .refl x⟩
        | step x w y cell h2 h3 _ ih =>
          intro hx
          have he := hedge x w ⟨cell, h2, h3⟩ (by omega)
          obtain ⟨h4, h5⟩ := ih (hcl x w hx he)
          exact ⟨h4, reaches_edge he h5⟩
      have hold : ∀ x y, Reaches (h1.set a c) x y → y < h.length → y ≠ a → Reaches h1 x y := by
        intro x y hr
        induction hr with
        | refl x => exact fun _ _ => .refl x
        | step x w y cell h2 h3 hwy ih =>
          intro hy hya
          by_cases hxa : x = a
          · subst hxa
            have := (hnew w y hwy (hfrom w ⟨cell, h2, h3⟩)).1
            omega
          · exact reaches_edge (hedge x w ⟨cell, h2, h3⟩ hxa) (ih hy hya)
      intro x hx
      obtain ⟨z, hxz, hzx⟩ := belowItself_edge.1 hx
      by_cases hxl : h.length ≤ x
      · have he := hedge x z hxz (by omega)
        exact hA1 x (belowItself_edge.2 ⟨z, he, (hnew z x hzx (hcl x z hxl he)).2⟩)
      · by_cases hxa : x = a
        · subst hxa
          have := (hnew z x hzx (hfrom z hxz)).1
          omega
        · exact hA1 x (belowItself_edge.2 ⟨z, hedge x z hxz hxa, hold z x hzx (by omega) hxa⟩)
    · exact hA1
  · exact hA1

theorem acyclic_load {E : Env} {h : Heap} (hA : Acyclic h) (hV : Valid h) {v : Ptr} (hv : ValidPtr h v) (b : Bytes) : Acyclic (hload E h v b).1 := by
  rcases hload_cases E h v b with ⟨t, -, e⟩ | ⟨x, -, e⟩
  · rw [e]; exact acyclic_overwrite hA hV hv t
  · rw [e]; exact hA

/-! ## any call -/

theorem sameBelow_none {h h' : Heap} : SameBelow h h' none := by intro a b hab; cases hab

/-- a call that leaves the child it stores as it was makes no cycle -/
theorem run_acyclic {E : Env} {h : Heap} (hV : Valid h) (op : HOp) (ha : ∀ p ∈ op.args, ValidPtr h p) (hA : Acyclic h) (hs : SameBelow h (op.run E h).1 op.child) :
    Acyclic (op.run E h).1 := by
  cases op with
  | new v => exact acyclic_down hA hV (hbuild_down v h).1
  | get cl v ps => exact acyclic_edges hA (edges_low (hget_got ps).1) sameBelow_none
  | set v c ps => exact put_safe .set ps hV (ha v (by simp [HOp.args])) (ha c (by simp [HOp.args])) hA hs
  | insert after v c ps => exact put_safe (.insert after) ps hV (ha v (by simp [HOp.args])) (ha c (by simp [HOp.args])) hA hs
  | append beg v c ps => exact put_safe (.append beg) ps hV (ha v (by simp [HOp.args])) (ha c (by simp [HOp.args])) hA hs
  | delete cl v ps => exact acyclic_edges hA (hdeleteAt_adds ps []) sameBelow_none
  | sort v ys => exact acyclic_edges hA hreorder_adds sameBelow_none
  | copy n v => exact acyclic_down hA hV (hdeepCopy_down n h v).1
  | load v b => exact acyclic_load hA hV (ha v (by simp [HOp.args])) b

end JV
