import Verif.Proofs.HeapMore
import Verif.Proofs.HeapRead
/-!
Operations on arbitrary heaps, with sharing and cycles. A region is a set of objects without pointers that lead out of it. An operation whose
arguments point into a region writes only there, and what it allocates and returns stays inside the enlarged region.
-/
namespace JV
open Spec

/-- the pointer is nil or leads into `S` -/
def In (S : Nat → Prop) (p : Ptr) : Prop := ∀ b, p = some b → S b

theorem in_none (S : Nat → Prop) : In S none := by intro b hb; cases hb
theorem in_some {S : Nat → Prop} {a : Nat} (h : S a) : In S (some a) := by intro b hb; cases hb; exact h

/-- a region together with the objects allocated since -/
def Grown (S : Nat → Prop) (h h' : Heap) : Nat → Prop := fun a => S a ∨ (h.length ≤ a ∧ a < h'.length)

structure Confined (S : Nat → Prop) (h h' : Heap) : Prop where
  len : h.length ≤ h'.length
  frame : ∀ a, ¬ S a → a < h.length → h'[a]? = h[a]?
  closed : SelfContained h' (Grown S h h')

theorem in_grown {S : Nat → Prop} {h h' : Heap} {p : Ptr} (hp : In S p) : In (Grown S h h') p := fun b hb => .inl (hp b hb)

theorem selfContained_congr {h : Heap} {S T : Nat → Prop} (hS : SelfContained h S) (hST : ∀ a, S a ↔ T a) : SelfContained h T := by
  have : S = T := funext fun a => propext (hST a)
  rw [← this]; exact hS

theorem selfContained_lt {h : Heap} {S : Nat → Prop} (hS : SelfContained h S) {a : Nat} (ha : S a) : a < h.length := by
  obtain ⟨c, hc, -⟩ := hS a ha
  exact (List.getElem?_eq_some_iff.1 hc).1

theorem region_refl {S : Nat → Prop} {h : Heap} (hS : SelfContained h S) : Confined S h h :=
  ⟨Nat.le_refl _, fun _ _ _ => rfl, selfContained_congr hS fun a => ⟨.inl, fun ha => ha.elim id (by omega)⟩⟩

theorem grown_grown {S : Nat → Prop} {h h1 h2 : Heap} (l1 : h.length ≤ h1.length) (l2 : h1.length ≤ h2.length) (a : Nat) :
    Grown (Grown S h h1) h1 h2 a ↔ Grown S h h2 a := by
  simp only [Grown]
  constructor
  · rintro ((h | h) | h)
    · exact .inl h
    · exact .inr ⟨h.1, by omega⟩
    · exact .inr ⟨by omega, h.2⟩
  · rintro (h | h)
    · exact .inl (.inl h)
    · by_cases ha : a < h1.length
      · exact .inl (.inr ⟨h.1, ha⟩)
      · exact .inr ⟨by omega, h.2⟩

theorem region_trans {S : Nat → Prop} {h h1 h2 : Heap} (w1 : Confined S h h1) (w2 : Confined (Grown S h h1) h1 h2) : Confined S h h2 := by
  refine ⟨Nat.le_trans w1.len w2.len, fun a ha hl => ?_, selfContained_congr w2.closed (grown_grown w1.len w2.len)⟩
  rw [w2.frame a (fun hg => hg.elim ha (by omega)) (by have := w1.len; omega), w1.frame a ha hl]

theorem region_write {S : Nat → Prop} {h : Heap} (hS : SelfContained h S) {a : Nat} {c : Cell} (ha : S a) (hc : ∀ b, some b ∈ kids c → S b) : Confined S h (h.set a c) := by
  refine ⟨by simp, fun b hb _ => ?_, fun b hb => ?_⟩
  · rw [List.getElem?_set_ne]; rintro rfl; exact hb ha
  · have hb : S b := hb.elim id (by simp; omega)
    by_cases hab : a = b
    · subst hab
      refine ⟨c, by rw [List.getElem?_set_self (selfContained_lt hS ha)], fun x hx => .inl (hc x hx)⟩
    · obtain ⟨d, hd, hk⟩ := hS b hb
      exact ⟨d, by rw [List.getElem?_set_ne hab, hd], fun x hx => .inl (hk x hx)⟩

theorem region_alloc {S : Nat → Prop} {h : Heap} (hS : SelfContained h S) {c : Cell} (hc : ∀ b, some b ∈ kids c → S b) : Confined S h (h ++ [c]) := by
  refine ⟨by simp, fun b _ hl => List.getElem?_append_left hl, fun b hb => ?_⟩
  rcases hb with hb | ⟨h1, h2⟩
  · obtain ⟨d, hd, hk⟩ := hS b hb
    exact ⟨d, by rw [List.getElem?_append_left (selfContained_lt hS hb), hd], fun x hx => .inl (hk x hx)⟩
  · simp at h2
    have : b = h.length := by omega
    subst this
    exact ⟨c, by simp, fun x hx => .inl (hc x hx)⟩

theorem alloc_in {S : Nat → Prop} {h : Heap} (c : Cell) : In (Grown S h (h ++ [c])) (some h.length) := in_some (.inr ⟨Nat.le_refl _, by simp⟩)

/-- what an operation may do -/
def Stays (S : Nat → Prop) (h : Heap) (r : Heap × R Ptr) : Prop := Confined S h r.1 ∧ ∀ p, r.2 = .ok p → In (Grown S h r.1) p

theorem stays_same {S : Nat → Prop} {h : Heap} (hS : SelfContained h S) {t : R Ptr} (ht : ∀ p, t = .ok p → In S p) : Stays S h (h, t) :=
  ⟨region_refl hS, fun p hp => in_grown (ht p hp)⟩

theorem stays_err {S : Nat → Prop} {h : Heap} (hS : SelfContained h S) {e : Err} : Stays S h (h, .err e) := stays_same hS (by intro p hp; cases hp)
theorem stays_panic {S : Nat → Prop} {h : Heap} (hS : SelfContained h S) : Stays S h (h, .panic) := stays_same hS (by intro p hp; cases hp)
theorem stays_diverge {S : Nat → Prop} {h : Heap} (hS : SelfContained h S) : Stays S h (h, .diverge) := stays_same hS (by intro p hp; cases hp)
theorem stays_ok {S : Nat → Prop} {h : Heap} (hS : SelfContained h S) {p : Ptr} (hp : In S p) : Stays S h (h, .ok p) :=
  stays_same hS (by intro q hq; cases hq; exact hp)

theorem stays_write {S : Nat → Prop} {h : Heap} (hS : SelfContained h S) {a : Nat} {c : Cell} (ha : S a) (hc : ∀ p ∈ kids c, In S p) {t : R Ptr} (ht : ∀ p, t = .ok p → In S p) :
    Stays S h (h.set a c, t) :=
  ⟨region_write hS ha fun b hb => hc _ hb b rfl, fun p hp => in_grown (ht p hp)⟩

theorem stays_trans {S : Nat → Prop} {h h1 : Heap} {r : Heap × R Ptr} (w : Confined S h h1) (hr : Stays (Grown S h h1) h1 r) : Stays S h r :=
  ⟨region_trans w hr.1, fun p hp b hb => (grown_grown w.len hr.1.len b).1 (hr.2 p hp b hb)⟩

theorem stays_then {S : Nat → Prop} {h : Heap} {r : Heap × R Ptr} {g : Heap → Ptr → Heap × R Ptr} (hr : Stays S h r)
    (hg : ∀ h1 q, Confined S h h1 → In (Grown S h h1) q → Stays (Grown S h h1) h1 (g h1 q)) : Stays S h (hthen r g) := by
  obtain ⟨h1, t⟩ := r
  obtain ⟨w, hp⟩ := hr
  cases t with
  | ok q => exact stays_trans w (hg h1 q w (hp q rfl))
  | err e => exact ⟨w, by intro p hp; cases hp⟩
  | panic => exact ⟨w, by intro p hp; cases hp⟩
  | diverge => exact ⟨w, by intro p hp; cases hp⟩

theorem region_kid {h : Heap} {S : Nat → Prop} (hS : SelfContained h S) {a : Nat} (ha : S a) {c : Cell} (hc : h[a]? = some c) : ∀ p ∈ kids c, In S p := by
  obtain ⟨d, hd, hk⟩ := hS a ha
  rw [hc] at hd; cases hd
  intro p hp b hb
  subst hb
  exact hk b hp

theorem not_ok_err {α : Type} {P : α → Prop} {e : Err} : ∀ p, (R.err e : R α) = .ok p → P p := by intro p hp; cases hp
theorem not_ok_panic {α : Type} {P : α → Prop} : ∀ p, (R.panic : R α) = .ok p → P p := by intro p hp; cases hp

theorem ok_in {S : Nat → Prop} {q : Ptr} (hq : In S q) : ∀ p, (R.ok q : R Ptr) = .ok p → In S p := by intro p hp; cases hp; exact hq

theorem hlocate_stays {E : Env} {cl : Bool} {S : Nat → Prop} {h : Heap} (hS : SelfContained h S) {v : Ptr} (hv : In S v) (p : Param) : Stays S h (hlocate E cl h v p) := by
  cases v with
  | none => exact stays_panic hS
  | some a =>
    have ha := hv a rfl
    obtain ⟨c, hc, -⟩ := hS a ha
    have hk := region_kid hS ha hc
    simp only [hlocate, hc]
    cases c with
    | arr xs =>
      simp only
      cases anyToInt p with
      | ok pos =>
        simp only
        split
        · exact stays_err hS
        · cases hx : xs[(posForRead xs.length pos).toNat]? with
          | none => exact stays_panic hS
          | some q => exact stays_ok hS (hk q (List.mem_of_getElem? hx))
      | err e => exact stays_err hS
      | panic => exact stays_panic hS
      | diverge => exact stays_panic hS
    | obj n kvs low =>
      have hk : ∀ low' : Low, ∀ p ∈ kids (.obj n kvs low'), In S p := fun _ => hk
      simp only
      cases anyToString p with
      | ok key =>
        simp only
        cases hf : findKey E cl (keysOf kvs) low key with
        | mk low' k =>
          cases k with
          | none => exact stays_write hS ha (hk _) not_ok_err
          | some k =>
            simp only
            cases hl : hlookup k kvs with
            | none => exact stays_write hS ha (hk _) not_ok_panic
            | some e => exact stays_write hS ha (hk _) (ok_in (hk none _ (List.mem_map_of_mem (hlookup_mem hl).1)))
      | err e => exact stays_err hS
      | panic => exact stays_panic hS
      | diverge => exact stays_panic hS
    | _ => exact stays_err hS

theorem hget_stays_cons {E : Env} {cl : Bool} {S : Nat → Prop} {h : Heap} (hS : SelfContained h S) {v : Ptr} (hv : In S v) (p : Param) {rest : List Param} (hne : rest.isEmpty = false)
    (ih : ∀ {S : Nat → Prop} {h : Heap} {v : Ptr}, SelfContained h S → In S v → Stays S h (hget E cl h v rest)) : Stays S h (hget E cl h v (p :: rest)) := by
  unfold hget
  rw [hne]
  simp only [Bool.false_eq_true, if_false]
  split
  · exact stays_err hS
  · have := hlocate_stays (E := E) (cl := cl) hS hv p
    have h2 := stays_then (g := fun h c => hget E cl h c rest) this fun h1 q w hq => ih w.closed hq
    cases hl : hlocate E cl h v p with
    | mk h1 t => rw [hl] at h2; cases t <;> exact h2

mutual
theorem hget1_stays {E : Env} {cl : Bool} : ∀ (p : Param) {S : Nat → Prop} {h : Heap} {v : Ptr}, SelfContained h S → In S v → Stays S h (hget1 E cl h v p)
  | .slice qs, S, h, v, hS, hv => by
    unfold hget1
    split
    · exact hlocate_stays hS hv _
    · exact hget_stays qs hS hv
  | .str s, S, h, v, hS, hv => by unfold hget1; exact hlocate_stays hS hv _
  | .int z, S, h, v, hS, hv => by unfold hget1; exact hlocate_stays hS hv _
  | .uint z, S, h, v, hS, hv => by unfold hget1; exact hlocate_stays hS hv _
  | .nil, S, h, v, hS, hv => by unfold hget1; exact hlocate_stays hS hv _
  | .other, S, h, v, hS, hv => by unfold hget1; exact hlocate_stays hS hv _
theorem hget_stays {E : Env} {cl : Bool} : ∀ (ps : List Param) {S : Nat → Prop} {h : Heap} {v : Ptr}, SelfContained h S → In S v → Stays S h (hget E cl h v ps)
  | [], S, h, v, hS, hv => by unfold hget; exact stays_panic hS
  | p :: rest, S, h, v, hS, hv => by
    cases he : rest.isEmpty with
    | true => unfold hget; rw [he]; exact hget1_stays p hS hv
    | false => exact hget_stays_cons hS hv p he fun hS hv => hget_stays rest hS hv
end

theorem mem_hassign {e x : HEnt} {kvs : List HEnt} (h : x ∈ hassign e kvs) : x = e ∨ x ∈ kvs := by
  induction kvs with
  | nil => simp [hassign] at h; exact .inl h
  | cons y ys ih =>
    simp only [hassign] at h
    split at h
    · rcases List.mem_cons.1 h with h | h
      · exact .inl h
      · exact .inr (List.mem_cons_of_mem _ h)
    · rcases List.mem_cons.1 h with h | h
      · exact .inr (h ▸ List.mem_cons_self ..)
      · exact (ih h).imp id (List.mem_cons_of_mem _)

theorem mem_herase {k : Bytes} {x : HEnt} {kvs : List HEnt} (h : x ∈ herase k kvs) : x ∈ kvs := by
  induction kvs with
  | nil => cases h
  | cons y ys ih =>
    simp only [herase] at h
    split at h
    · exact List.mem_cons_of_mem _ h
    · rcases List.mem_cons.1 h with h | h
      · exact h ▸ List.mem_cons_self ..
      · exact List.mem_cons_of_mem _ (ih h)

theorem hsetKey_stays {E : Env} {S : Nat → Prop} {h : Heap} (hS : SelfContained h S) {a : Nat} (ha : S a) (k : Bytes) {c : Ptr} (hc : In S c) : Stays S h (hsetKey E h a k c) := by
  obtain ⟨d, hd, -⟩ := hS a ha
  have hk := region_kid hS ha hd
  simp only [hsetKey, hd]
  cases d with
  | obj n kvs low =>
    refine stays_write hS ha ?_ (ok_in hc)
    intro p hp
    obtain ⟨x, hx, rfl⟩ := List.mem_map.1 hp
    rcases mem_hassign hx with rfl | hx
    · exact hc
    · exact hk _ (List.mem_map_of_mem hx)
  | _ => exact stays_panic hS

theorem hpush_stays {S : Nat → Prop} {h : Heap} (hS : SelfContained h S) {a : Nat} (ha : S a) {c : Ptr} (hc : In S c) : Stays S h (hpush h a c) := by
  obtain ⟨d, hd, -⟩ := hS a ha
  have hk := region_kid hS ha hd
  simp only [hpush, hd]
  cases d with
  | arr xs =>
    refine stays_write hS ha ?_ (ok_in hc)
    intro p hp
    rcases List.mem_append.1 hp with hp | hp
    · exact hk _ hp
    · rw [List.mem_singleton.1 hp]; exact hc
  | _ => exact stays_panic hS

theorem setAtIndex_mem {xs ys : List Ptr} {c : Ptr} {z : Int} {i : Nat} (h : setAtIndex xs c z = .ok (ys, i)) : ∀ p ∈ ys, p ∈ xs ∨ p = c := by
  rw [setAtIndex_eq] at h
  split at h
  · cases h; intro p hp; simpa using hp
  · split at h
    · cases h; intro p hp; exact List.mem_or_eq_of_mem_set hp
    · cases h

theorem hatLast_stays {E : Env} {S : Nat → Prop} {h : Heap} (hS : SelfContained h S) {v c : Ptr} (hv : In S v) (hc : In S c) (p : Param) : Stays S h (hatLast E h v c p) := by
  cases v with
  | none => exact stays_panic hS
  | some a =>
    have ha := hv a rfl
    obtain ⟨d, hd, -⟩ := hS a ha
    have hk := region_kid hS ha hd
    simp only [hatLast, hd]
    cases d with
    | obj n kvs low =>
      simp only
      cases anyToString p with
      | ok k => exact hsetKey_stays hS ha k hc
      | err e => exact stays_err hS
      | panic => exact stays_panic hS
      | diverge => exact stays_panic hS
    | arr xs =>
      simp only
      cases anyToInt p with
      | ok pos =>
        simp only
        cases hx : setAtIndex xs c pos with
        | ok q =>
          refine stays_write hS ha ?_ (ok_in hc)
          intro p hp
          rcases setAtIndex_mem hx p hp with hp | rfl
          · exact hk _ hp
          · exact hc
        | err e => exact stays_err hS
        | panic => exact stays_panic hS
        | diverge => exact stays_panic hS
      | err e => exact stays_err hS
      | panic => exact stays_panic hS
      | diverge => exact stays_panic hS
    | _ => exact stays_err hS

theorem stays_if {S : Nat → Prop} {h : Heap} {b : Prop} [Decidable b] {x y : Heap × R Ptr} (hx : Stays S h x) (hy : Stays S h y) : Stays S h (if b then x else y) := by
  split
  · exact hx
  · exact hy

theorem newContainer_kids {q : Param} {cell : Cell} (hq : hnewContainer q = .ok cell) : kids cell = [] := by
  unfold hnewContainer at hq
  repeat' split at hq
  all_goals cases hq
  all_goals rfl

/-- a container is created, filled and linked -/
theorem new_stays {E : Env} {S : Nat → Prop} {h : Heap} (hS : SelfContained h S) {c : Ptr} (hc : In S c) {rest : List Param} {cell : Cell} (hcell : kids cell = [])
    (ih : ∀ {S : Nat → Prop} {h : Heap} {v c : Ptr}, SelfContained h S → In S v → In S c → Stays S h (hsetAt E h v c rest))
    {link : Heap → Heap × R Ptr} (hl : ∀ {T : Nat → Prop} {h' : Heap}, (∀ a, S a → T a) → SelfContained h' T → In T (some h.length) → Stays T h' (link h')) :
    Stays S h (hthen (hsetAt E (h ++ [cell]) (some h.length) c rest) fun h' c => hthen (link h') fun h' _ => (h', .ok c)) := by
  have w := region_alloc hS (c := cell) (by simp [hcell])
  refine stays_trans w (stays_then (ih w.closed (alloc_in cell) (in_grown hc)) ?_)
  intro h1 q w1 hq
  refine stays_then (hl (fun a ha => .inl (.inl ha)) w1.closed (in_grown (alloc_in cell))) ?_
  intro h2 q2 w2 hq2
  exact stays_ok w2.closed (in_grown hq)

theorem hset_two_stays {E : Env} {S : Nat → Prop} {h : Heap} (hS : SelfContained h S) {v c : Ptr} (hv : In S v) (hc : In S c) (p next : Param) (rest : List Param)
    (ih : ∀ {S : Nat → Prop} {h : Heap} {v c : Ptr}, SelfContained h S → In S v → In S c → Stays S h (hsetAt E h v c (next :: rest))) :
    Stays S h (hsetAt E h v c (p :: next :: rest)) := by
  conv => arg 3; unfold hsetAt
  simp only
  refine stays_if (stays_err hS) (stays_if (stays_err hS) ?_)
  cases v with
  | none => exact stays_panic hS
  | some a =>
    have ha := hv a rfl
    obtain ⟨d, hd, -⟩ := hS a ha
    have hk := region_kid hS ha hd
    simp only [hd]
    cases d with
    | obj n kvs low =>
      simp only
      cases anyToString p with
      | ok k =>
        simp only
        cases hl : hlookup k kvs with
        | some e => exact ih hS (hk _ (List.mem_map_of_mem (hlookup_mem hl).1)) hc
        | none =>
          simp only
          cases hn : hnewContainer next with
          | ok cell => exact new_stays hS hc (newContainer_kids hn) ih fun hT hh hp => hsetKey_stays hh (hT a ha) k hp
          | err e => exact stays_err hS
          | panic => exact stays_panic hS
          | diverge => exact stays_panic hS
      | err e => exact stays_err hS
      | panic => exact stays_panic hS
      | diverge => exact stays_panic hS
    | arr xs =>
      simp only
      cases anyToInt p with
      | ok pos =>
        simp only
        split
        · cases hn : hnewContainer next with
          | ok cell => exact new_stays hS hc (newContainer_kids hn) ih fun hT hh hp => hpush_stays hh (hT a ha) hp
          | err e => exact stays_err hS
          | panic => exact stays_panic hS
          | diverge => exact stays_panic hS
        · cases hx : xs[(posForRead xs.length pos).toNat]? with
          | none => exact stays_panic hS
          | some q => exact ih hS (hk q (List.mem_of_getElem? hx)) hc
      | err e => exact stays_err hS
      | panic => exact stays_panic hS
      | diverge => exact stays_panic hS
    | _ => exact stays_err hS

mutual
theorem hsetAt1_stays {E : Env} : ∀ (p : Param) {S : Nat → Prop} {h : Heap} {v c : Ptr}, SelfContained h S → In S v → In S c → Stays S h (hsetAt1 E h v c p)
  | .slice qs, S, h, v, c, hS, hv, hc => by
    unfold hsetAt1
    exact stays_if (stays_if (stays_err hS) (hatLast_stays hS hv hc _)) (hsetAt_stays qs hS hv hc)
  | .str s, S, h, v, c, hS, hv, hc => by unfold hsetAt1; exact stays_if (stays_err hS) (hatLast_stays hS hv hc _)
  | .int z, S, h, v, c, hS, hv, hc => by unfold hsetAt1; exact stays_if (stays_err hS) (hatLast_stays hS hv hc _)
  | .uint z, S, h, v, c, hS, hv, hc => by unfold hsetAt1; exact stays_if (stays_err hS) (hatLast_stays hS hv hc _)
  | .nil, S, h, v, c, hS, hv, hc => by unfold hsetAt1; exact stays_if (stays_err hS) (hatLast_stays hS hv hc _)
  | .other, S, h, v, c, hS, hv, hc => by unfold hsetAt1; exact stays_if (stays_err hS) (hatLast_stays hS hv hc _)
theorem hsetAt_stays {E : Env} : ∀ (ps : List Param) {S : Nat → Prop} {h : Heap} {v c : Ptr}, SelfContained h S → In S v → In S c → Stays S h (hsetAt E h v c ps)
  | [], S, h, v, c, hS, hv, hc => by unfold hsetAt; exact stays_panic hS
  | [p], S, h, v, c, hS, hv, hc => by unfold hsetAt; exact hsetAt1_stays p hS hv hc
  | p :: q :: rest, S, h, v, c, hS, hv, hc => hset_two_stays hS hv hc p q rest fun hS hv hc => hsetAt_stays (q :: rest) hS hv hc
end

theorem hgetArray_stays {E : Env} {S : Nat → Prop} {h : Heap} (hS : SelfContained h S) {v : Ptr} (hv : In S v) (ps : List Param) : Stays S h (hgetArray E h v ps) := by
  refine stays_then (hget_stays ps hS hv) ?_
  intro h1 q w hq
  cases q with
  | none => exact stays_panic w.closed
  | some b =>
    obtain ⟨c, hc, -⟩ := w.closed b (hq b rfl)
    simp only [hc]
    cases c with
    | arr xs => exact stays_ok w.closed hq
    | _ => exact stays_err w.closed

theorem insertToArr_mem {xs ys : List Ptr} {i : Nat} {c : Ptr} (h : insertToArr xs i c = .ok ys) (hi : i ≤ xs.length) : ∀ p ∈ ys, p ∈ xs ∨ p = c := by
  rw [insertToArr_eq xs i c hi] at h
  cases h
  intro p hp
  rcases List.mem_append.1 hp with hp | hp
  · exact .inl (List.mem_of_mem_take hp)
  · rcases List.mem_cons.1 hp with hp | hp
    · exact .inr hp
    · exact .inl (List.mem_of_mem_drop hp)

theorem write_arr_stays {S : Nat → Prop} {h : Heap} (hS : SelfContained h S) {a : Nat} (ha : S a) {xs ys : List Ptr} (hx : h[a]? = some (.arr xs)) {c : Ptr} (hc : In S c)
    (hy : ∀ p ∈ ys, p ∈ xs ∨ p = c) : Stays S h (h.set a (.arr ys), .ok c) := by
  refine stays_write hS ha ?_ (ok_in hc)
  intro p hp
  rcases hy p hp with hp | rfl
  · exact region_kid hS ha hx p hp
  · exact hc

theorem hinsertLast_stays {after : Bool} {S : Nat → Prop} {h : Heap} (hS : SelfContained h S) {v c : Ptr} (hv : In S v) (hc : In S c) (p : Param) : Stays S h (hinsertLast after h v c p) := by
  cases v with
  | none => exact stays_if (stays_err hS) (stays_panic hS)
  | some a =>
    have ha := hv a rfl
    obtain ⟨d, hd, -⟩ := hS a ha
    simp only [hinsertLast, hd]
    cases d with
    | arr xs =>
      simp only
      cases anyToInt p with
      | ok pos =>
        simp only
        by_cases h1 : (if after = true then posForInsertAfter xs.length pos else (posForInsertBefore xs.length pos, false)).1 < 0
        · rw [if_pos h1]; exact stays_err hS
        · rw [if_neg h1]
          by_cases h2 : (if after = true then posForInsertAfter xs.length pos else (posForInsertBefore xs.length pos, false)).2 = true
          · rw [if_pos h2]; exact write_arr_stays hS ha hd hc (by simp)
          · rw [if_neg h2]
            have hb : (if after = true then posForInsertAfter xs.length pos else (posForInsertBefore xs.length pos, false)).1.toNat ≤ xs.length := by
              cases after with
              | true => exact posAfter_bound h1 (by simpa using h2)
              | false => exact posBefore_bound h1
            cases hi : insertToArr xs (if after = true then posForInsertAfter xs.length pos else (posForInsertBefore xs.length pos, false)).1.toNat c with
            | ok ys => exact write_arr_stays hS ha hd hc (insertToArr_mem hi hb)
            | err e => exact stays_panic hS
            | panic => exact stays_panic hS
            | diverge => exact stays_panic hS
      | err e => exact stays_err hS
      | panic => exact stays_panic hS
      | diverge => exact stays_panic hS
    | _ => exact stays_err hS

mutual
theorem hinsertAt1_stays {E : Env} {after : Bool} : ∀ (p : Param) {S : Nat → Prop} {h : Heap} {v c : Ptr}, SelfContained h S → In S v → In S c → Stays S h (hinsertAt1 E after h v c p)
  | .slice qs, S, h, v, c, hS, hv, hc => by
    unfold hinsertAt1
    exact stays_if (hinsertLast_stays hS hv hc _) (hinsertAt_stays qs [] hS hv hc)
  | .str s, S, h, v, c, hS, hv, hc => by unfold hinsertAt1; exact hinsertLast_stays hS hv hc _
  | .int z, S, h, v, c, hS, hv, hc => by unfold hinsertAt1; exact hinsertLast_stays hS hv hc _
  | .uint z, S, h, v, c, hS, hv, hc => by unfold hinsertAt1; exact hinsertLast_stays hS hv hc _
  | .nil, S, h, v, c, hS, hv, hc => by unfold hinsertAt1; exact hinsertLast_stays hS hv hc _
  | .other, S, h, v, c, hS, hv, hc => by unfold hinsertAt1; exact hinsertLast_stays hS hv hc _
theorem hinsertAt_stays {E : Env} {after : Bool} : ∀ (ps pre : List Param) {S : Nat → Prop} {h : Heap} {v c : Ptr}, SelfContained h S → In S v → In S c →
    Stays S h (hinsertAt E after h v c pre ps)
  | [], pre, S, h, v, c, hS, hv, hc => by unfold hinsertAt; exact stays_panic hS
  | p :: rest, pre, S, h, v, c, hS, hv, hc => by
    unfold hinsertAt
    refine stays_if (hinsertAt_stays rest _ hS hv hc) ?_
    cases pre with
    | nil => exact hinsertAt1_stays p hS hv hc
    | cons first pre =>
      refine stays_if (stays_err hS) ?_
      cases v with
      | none => exact stays_if (stays_err hS) (stays_panic hS)
      | some a =>
        refine stays_if (stays_err hS) (stays_then (hgetArray_stays hS hv _) ?_)
        intro h1 q w hq
        exact hinsertAt1_stays p w.closed hq (in_grown hc)
end

theorem happendTo_stays {beg : Bool} {S : Nat → Prop} {h : Heap} (hS : SelfContained h S) {v c : Ptr} (hv : In S v) (hc : In S c) : Stays S h (happendTo beg h v c) := by
  cases v with
  | none => exact stays_panic hS
  | some a =>
    have ha := hv a rfl
    obtain ⟨d, hd, -⟩ := hS a ha
    simp only [happendTo, hd]
    cases d with
    | arr xs =>
      refine stays_if ?_ (write_arr_stays hS ha hd hc (by simp))
      cases hi : insertToArr xs 0 c with
      | ok ys => exact write_arr_stays hS ha hd hc (insertToArr_mem hi (by omega))
      | err e => exact stays_panic hS
      | panic => exact stays_panic hS
      | diverge => exact stays_panic hS
    | _ => exact stays_ok hS hc

theorem happendPath_stays {E : Env} {beg : Bool} {S : Nat → Prop} {h : Heap} (hS : SelfContained h S) {v c : Ptr} (hv : In S v) (hc : In S c) (ps : List Param) :
    Stays S h (happendPath E beg h v c ps) := by
  have hg := hgetArray_stays (E := E) hS hv ps
  unfold happendPath
  cases hr : hgetArray E h v ps with
  | mk h1 t =>
    rw [hr] at hg
    obtain ⟨w, hp⟩ := hg
    simp only at w hp
    cases t with
    | ok q => exact stays_trans w (happendTo_stays w.closed (hp q rfl) (in_grown hc))
    | err e =>
      by_cases he : e = .notFound
      · subst he
        simp only
        have w2 := region_alloc w.closed (c := .arr []) (by simp [kids])
        refine stays_trans w (stays_trans w2 (stays_then (hsetAt_stays ps w2.closed (in_grown (in_grown hv)) (alloc_in _)) ?_))
        intro h2 q w3 hq
        exact happendTo_stays w3.closed hq (in_grown (in_grown (in_grown hc)))
      · cases e <;> first | exact ⟨w, not_ok_err⟩ | exact absurd rfl he
    | panic => exact ⟨w, not_ok_panic⟩
    | diverge => exact ⟨w, by intro p hp; cases hp⟩

mutual
theorem happendAt1_stays {E : Env} {beg : Bool} : ∀ (p : Param) {S : Nat → Prop} {h : Heap} {v c : Ptr}, SelfContained h S → In S v → In S c → Stays S h (happendAt1 E beg h v c p)
  | .slice qs, S, h, v, c, hS, hv, hc => by unfold happendAt1; exact happendAt_stays qs hS hv hc
  | .str s, S, h, v, c, hS, hv, hc => by unfold happendAt1; exact happendPath_stays hS hv hc _
  | .int z, S, h, v, c, hS, hv, hc => by unfold happendAt1; exact happendPath_stays hS hv hc _
  | .uint z, S, h, v, c, hS, hv, hc => by unfold happendAt1; exact happendPath_stays hS hv hc _
  | .nil, S, h, v, c, hS, hv, hc => by unfold happendAt1; exact happendPath_stays hS hv hc _
  | .other, S, h, v, c, hS, hv, hc => by unfold happendAt1; exact happendPath_stays hS hv hc _
theorem happendAt_stays {E : Env} {beg : Bool} : ∀ (ps : List Param) {S : Nat → Prop} {h : Heap} {v c : Ptr}, SelfContained h S → In S v → In S c → Stays S h (happendAt E beg h v c ps)
  | [], S, h, v, c, hS, hv, hc => by
    unfold happendAt
    cases v with
    | none => exact stays_if (stays_err hS) (stays_panic hS)
    | some a =>
      obtain ⟨d, hd, -⟩ := hS a (hv a rfl)
      simp only [hd]
      cases d with
      | arr xs => exact happendTo_stays hS hv hc
      | _ => exact stays_err hS
  | p :: rest, S, h, v, c, hS, hv, hc => by
    unfold happendAt
    cases v with
    | none => exact stays_if (stays_err hS) (stays_panic hS)
    | some a =>
      exact stays_if (stays_err hS) (stays_if (stays_err hS) (stays_if (happendAt1_stays p hS hv hc) (happendPath_stays hS hv hc _)))
end

theorem hdeleteLast_stays {E : Env} {cl : Bool} {S : Nat → Prop} {h : Heap} (hS : SelfContained h S) {v : Ptr} (hv : In S v) (p : Param) : Stays S h (hdeleteLast E cl h v p) := by
  cases v with
  | none => exact stays_panic hS
  | some a =>
    have ha := hv a rfl
    obtain ⟨d, hd, -⟩ := hS a ha
    have hk := region_kid hS ha hd
    simp only [hdeleteLast, hd]
    cases d with
    | obj n kvs low =>
      have hk : ∀ low' : Low, ∀ p ∈ kids (.obj n kvs low'), In S p := fun _ => hk
      simp only
      cases anyToString p with
      | ok key =>
        simp only
        cases hf : findKey E cl (keysOf kvs) low key with
        | mk low' k =>
          cases k with
          | none => exact stays_write hS ha (hk _) not_ok_err
          | some k =>
            refine stays_write hS ha ?_ (ok_in (in_none S))
            intro p hp
            obtain ⟨x, hx, rfl⟩ := List.mem_map.1 hp
            exact hk none _ (List.mem_map_of_mem (mem_herase hx))
      | err e => exact stays_err hS
      | panic => exact stays_panic hS
      | diverge => exact stays_panic hS
    | arr xs =>
      simp only
      cases anyToInt p with
      | ok pos =>
        simp only
        refine stays_if (stays_err hS) ?_
        by_cases hlt : (posForRead xs.length pos).toNat < xs.length
        · rw [deleteInArr_eq _ _ hlt]
          exact stays_write (c := .arr (xs.eraseIdx _)) hS ha (fun p (hp : p ∈ xs.eraseIdx _) => hk p ((List.eraseIdx_sublist xs _).subset hp)) (ok_in (in_none S))
        · rw [show deleteInArr xs (posForRead xs.length pos).toNat = .panic by simp [deleteInArr, hlt]]
          exact stays_panic hS
      | err e => exact stays_err hS
      | panic => exact stays_panic hS
      | diverge => exact stays_panic hS
    | _ => exact stays_err hS

mutual
theorem hdeleteAt1_stays {E : Env} {cl : Bool} : ∀ (p : Param) {S : Nat → Prop} {h : Heap} {v : Ptr}, SelfContained h S → In S v → Stays S h (hdeleteAt1 E cl h v p)
  | .slice qs, S, h, v, hS, hv => by
    unfold hdeleteAt1
    exact stays_if (hdeleteLast_stays hS hv _) (hdeleteAt_stays qs [] hS hv)
  | .str s, S, h, v, hS, hv => by unfold hdeleteAt1; exact hdeleteLast_stays hS hv _
  | .int z, S, h, v, hS, hv => by unfold hdeleteAt1; exact hdeleteLast_stays hS hv _
  | .uint z, S, h, v, hS, hv => by unfold hdeleteAt1; exact hdeleteLast_stays hS hv _
  | .nil, S, h, v, hS, hv => by unfold hdeleteAt1; exact hdeleteLast_stays hS hv _
  | .other, S, h, v, hS, hv => by unfold hdeleteAt1; exact hdeleteLast_stays hS hv _
theorem hdeleteAt_stays {E : Env} {cl : Bool} : ∀ (ps pre : List Param) {S : Nat → Prop} {h : Heap} {v : Ptr}, SelfContained h S → In S v → Stays S h (hdeleteAt E cl h v pre ps)
  | [], pre, S, h, v, hS, hv => by unfold hdeleteAt; exact stays_panic hS
  | p :: rest, pre, S, h, v, hS, hv => by
    unfold hdeleteAt
    refine stays_if (hdeleteAt_stays rest _ hS hv) ?_
    cases pre with
    | nil => exact hdeleteAt1_stays p hS hv
    | cons first pre =>
      refine stays_if (stays_err hS) (stays_then (hget_stays _ hS hv) ?_)
      intro h1 q w hq
      exact hdeleteAt1_stays p w.closed hq
end

theorem hreorder_stays {S : Nat → Prop} {h : Heap} (hS : SelfContained h S) {v : Ptr} (hv : In S v) (ys : List Ptr) : Stays S h (hreorder h v ys) := by
  cases v with
  | none => exact stays_panic hS
  | some a =>
    have ha := hv a rfl
    obtain ⟨d, hd, -⟩ := hS a ha
    have hk := region_kid hS ha hd
    simp only [hreorder, hd]
    cases d with
    | arr xs =>
      by_cases hp : xs.isPerm ys = true
      · simp only [hp, if_true]
        exact stays_write (c := .arr ys) hS ha (fun p (hq : p ∈ ys) => hk p ((List.isPerm_iff.1 hp).mem_iff.2 hq)) (ok_in (in_none S))
      · simp only [hp]; exact stays_panic hS
    | _ => exact stays_ok hS (in_none S)

theorem selfContained_frame {h h' : Heap} {S : Nat → Prop} (hS : SelfContained h S) (hf : ∀ a, S a → h'[a]? = h[a]?) : SelfContained h' S := by
  intro a ha
  obtain ⟨c, hc, hk⟩ := hS a ha
  exact ⟨c, by rw [hf a ha, hc], hk⟩

theorem region_mono {h h' : Heap} {T S : Nat → Prop} (w : Confined T h h') (hS : SelfContained h S) (hT : ∀ a, T a → S a) : Confined S h h' := by
  refine ⟨w.len, fun a ha => w.frame a fun hh => ha (hT a hh), fun a ha => ?_⟩
  by_cases hg : Grown T h h' a
  · obtain ⟨c, hc, hk⟩ := w.closed a hg
    exact ⟨c, hc, fun b hb => (hk b hb).imp (hT b) id⟩
  · have hg1 : ¬ T a := fun hh => hg (.inl hh)
    rcases ha with ha | ha
    · obtain ⟨c, hc, hk⟩ := hS a ha
      exact ⟨c, by rw [w.frame a hg1 (selfContained_lt hS ha), hc], fun b hb => .inl (hk b hb)⟩
    · exact absurd (.inr ha) hg

theorem in_mono {S T : Nat → Prop} {p : Ptr} (hp : In S p) (h : ∀ a, S a → T a) : In T p := fun b hb => h b (hp b hb)

theorem stays_mono {h : Heap} {T S : Nat → Prop} {r : Heap × R Ptr} (w : Stays T h r) (hS : SelfContained h S) (hT : ∀ a, T a → S a) : Stays S h r :=
  ⟨region_mono w.1 hS hT, fun p hp => in_mono (w.2 p hp) fun a ha => ha.imp (hT a) id⟩

/-- no object at all -/
def Nothing : Nat → Prop := fun _ => False

theorem nothing_closed (h : Heap) : SelfContained h Nothing := fun _ ha => ha.elim

theorem grown_mono {S : Nat → Prop} {h h1 h2 : Heap} (l : h1.length ≤ h2.length) (a : Nat) (ha : Grown S h h1 a) : Grown S h h2 a := ha.imp id fun h => ⟨h.1, by omega⟩

/-- a new object on top of new ones -/
theorem region_on {S : Nat → Prop} {h h1 : Heap} {c : Cell} (w : Confined S h h1) (hc : ∀ p ∈ kids c, In (Grown S h h1) p) : Confined S h (h1 ++ [c]) ∧ In (Grown S h (h1 ++ [c])) (some h1.length) := by
  refine ⟨region_trans w (region_alloc w.closed fun b hb => hc _ hb b rfl), in_some (.inr ⟨w.len, by simp⟩)⟩

mutual
theorem hbuild_within : ∀ (v : V) (h : Heap), Confined Nothing h (hbuild h v).1 ∧ In (Grown Nothing h (hbuild h v).1) (hbuild h v).2
  | .nilp, h => ⟨region_refl (nothing_closed h), in_none _⟩
  | .notExist, h => region_on (region_refl (nothing_closed h)) (by simp [kids])
  | .str s, h => region_on (region_refl (nothing_closed h)) (by simp [kids])
  | .num s n, h => region_on (region_refl (nothing_closed h)) (by simp [kids])
  | .bool b, h => region_on (region_refl (nothing_closed h)) (by simp [kids])
  | .null, h => region_on (region_refl (nothing_closed h)) (by simp [kids])
  | .arr xs, h => by
    obtain ⟨h1, h2⟩ := hbuilds_within xs h
    simp only [hbuild, halloc]
    exact region_on h1 h2
  | .obj n es low, h => by
    obtain ⟨h1, h2⟩ := hbuildEnts_within es h
    simp only [hbuild, halloc]
    exact region_on h1 h2
theorem hbuilds_within : ∀ (vs : List V) (h : Heap), Confined Nothing h (hbuilds h vs).1 ∧ ∀ p ∈ (hbuilds h vs).2, In (Grown Nothing h (hbuilds h vs).1) p
  | [], h => ⟨region_refl (nothing_closed h), by simp [hbuilds]⟩
  | v :: vs, h => by
    obtain ⟨h1, h2⟩ := hbuild_within v h
    obtain ⟨h3, h4⟩ := hbuilds_within vs (hbuild h v).1
    simp only [hbuilds]
    refine ⟨region_trans h1 (region_mono h3 h1.closed fun _ h => h.elim), fun p hp => ?_⟩
    rcases List.mem_cons.1 hp with rfl | hp
    · exact in_mono h2 (grown_mono h3.len)
    · exact in_mono (h4 p hp) fun a ha => ha.elim (fun h => h.elim) fun h => .inr ⟨by have := h1.len; omega, h.2⟩
theorem hbuildEnts_within : ∀ (es : List Ent) (h : Heap), Confined Nothing h (hbuildEnts h es).1 ∧ ∀ p ∈ (hbuildEnts h es).2.map HEnt.v, In (Grown Nothing h (hbuildEnts h es).1) p
  | [], h => ⟨region_refl (nothing_closed h), by simp [hbuildEnts]⟩
  | .mk k i v :: es, h => by
    obtain ⟨h1, h2⟩ := hbuild_within v h
    obtain ⟨h3, h4⟩ := hbuildEnts_within es (hbuild h v).1
    simp only [hbuildEnts]
    refine ⟨region_trans h1 (region_mono h3 h1.closed fun _ h => h.elim), fun p hp => ?_⟩
    rcases List.mem_cons.1 hp with rfl | hp
    · exact in_mono h2 (grown_mono h3.len)
    · exact in_mono (h4 p hp) fun a ha => ha.elim (fun h => h.elim) fun h => .inr ⟨by have := h1.len; omega, h.2⟩
end

theorem region_nothing_trans {h h1 h2 : Heap} (w1 : Confined Nothing h h1) (w2 : Confined Nothing h1 h2) : Confined Nothing h h2 :=
  region_trans w1 (region_mono w2 w1.closed fun _ h => h.elim)

theorem hcopyList_within {f : Heap → Ptr → Heap × R Ptr} {S : Nat → Prop}
    (hf : ∀ (h : Heap) (v : Ptr), SelfContained h S → In S v → Stays Nothing h (f h v)) :
    ∀ (xs : List Ptr) (h : Heap), SelfContained h S → (∀ p ∈ xs, In S p) →
      Confined Nothing h (hcopyList f h xs).1 ∧ ∀ cs, (hcopyList f h xs).2 = .ok cs → ∀ p ∈ cs, In (Grown Nothing h (hcopyList f h xs).1) p := by
  intro xs
  induction xs with
  | nil => intro h hS _; exact ⟨region_refl (nothing_closed h), by intro cs hcs; cases hcs; simp⟩
  | cons x xs ih =>
    intro h hS hx
    obtain ⟨w, hp⟩ := hf h x hS (hx x (by simp))
    simp only [hcopyList]
    cases hr : f h x with
    | mk h1 t =>
      rw [hr] at w hp
      simp only at w hp
      cases t with
      | ok c =>
        have hS1 : SelfContained h1 S := selfContained_frame hS fun a ha => w.frame a id (selfContained_lt hS ha)
        obtain ⟨w2, hp2⟩ := ih h1 hS1 fun p hp => hx p (by simp [hp])
        simp only
        cases hr2 : hcopyList f h1 xs with
        | mk h2 t2 =>
          rw [hr2] at w2 hp2
          simp only at w2 hp2
          cases t2 with
          | ok cs =>
            refine ⟨region_nothing_trans w w2, ?_⟩
            intro cs' hcs p hpm
            cases hcs
            rcases List.mem_cons.1 hpm with rfl | hpm
            · exact in_mono (hp _ rfl) (grown_mono w2.len)
            · exact in_mono (hp2 cs rfl p hpm) fun a ha => ha.elim (fun h => h.elim) fun h => .inr ⟨by have := w.len; omega, h.2⟩
          | err e => exact ⟨region_nothing_trans w w2, by intro p hp; cases hp⟩
          | panic => exact ⟨region_nothing_trans w w2, by intro p hp; cases hp⟩
          | diverge => exact ⟨region_nothing_trans w w2, by intro p hp; cases hp⟩
      | err e => exact ⟨w, by intro p hp; cases hp⟩
      | panic => exact ⟨w, by intro p hp; cases hp⟩
      | diverge => exact ⟨w, by intro p hp; cases hp⟩

theorem withValues_sub : ∀ {kvs : List HEnt} {cs : List Ptr} {p : Ptr}, p ∈ (withValues kvs cs).map HEnt.v → p ∈ cs
  | [], cs, p, h => by simp [withValues] at h
  | e :: kvs, [], p, h => by simp [withValues] at h
  | e :: kvs, c :: cs, p, h => by
    simp only [withValues, List.map_cons, List.mem_cons] at h
    rcases h with rfl | h
    · simp
    · exact List.mem_cons_of_mem _ (withValues_sub h)

/-- a deep copy writes to no existing object, and no new object points to an existing one -/
theorem hdeepCopy_stays {S : Nat → Prop} : ∀ (n : Nat) (h : Heap) (v : Ptr), SelfContained h S → In S v → Stays Nothing h (hdeepCopy n h v) := by
  intro n
  induction n with
  | zero => intro h v _ _; exact stays_diverge (nothing_closed h)
  | succ n ih =>
    intro h v hS hv
    have hleaf : ∀ c : Cell, kids c = [] → Stays Nothing h (h ++ [c], .ok (some h.length)) := by
      intro c hc
      obtain ⟨h1, h2⟩ := region_on (c := c) (region_refl (nothing_closed h)) (by simp [hc])
      exact ⟨h1, ok_in h2⟩
    cases v with
    | none => exact hleaf _ rfl
    | some a =>
      have ha := hv a rfl
      obtain ⟨d, hd, -⟩ := hS a ha
      have hk := region_kid hS ha hd
      simp only [hdeepCopy, hd]
      cases d with
      | arr xs =>
        obtain ⟨h1, h2⟩ := hcopyList_within ih xs h hS hk
        simp only
        cases hr : hcopyList (hdeepCopy n) h xs with
        | mk h' t =>
          rw [hr] at h1 h2
          simp only at h1 h2
          cases t with
          | ok cs =>
            obtain ⟨h3, h4⟩ := region_on (c := .arr cs) h1 (h2 cs rfl)
            exact ⟨h3, ok_in h4⟩
          | err e => exact ⟨h1, by intro p hp; cases hp⟩
          | panic => exact ⟨h1, by intro p hp; cases hp⟩
          | diverge => exact ⟨h1, by intro p hp; cases hp⟩
      | obj m kvs low =>
        obtain ⟨h1, h2⟩ := hcopyList_within ih (kvs.map HEnt.v) h hS hk
        simp only
        cases hr : hcopyList (hdeepCopy n) h (kvs.map HEnt.v) with
        | mk h' t =>
          rw [hr] at h1 h2
          simp only at h1 h2
          cases t with
          | ok cs =>
            obtain ⟨h3, h4⟩ := region_on (c := .obj m (withValues kvs cs) none) h1 fun p hp => h2 cs rfl p (withValues_sub hp)
            exact ⟨h3, ok_in h4⟩
          | err e => exact ⟨h1, by intro p hp; cases hp⟩
          | panic => exact ⟨h1, by intro p hp; cases hp⟩
          | diverge => exact ⟨h1, by intro p hp; cases hp⟩
      | notExist => exact hleaf _ rfl
      | str s => exact hleaf _ rfl
      | num s m => exact hleaf _ rfl
      | bool b => exact hleaf _ rfl
      | null => exact hleaf _ rfl

end JV
