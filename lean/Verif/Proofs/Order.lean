import Verif.Proofs.Layout
import Verif.Proofs.ObjRun
import Verif.Spec.Order
import Verif.Model.Iterate
/-! The order of members. -/
namespace JV
open Spec

variable {E : Env} {S : SortFn} {o : Opt} {T : Escaper}

theorem asc_iff : ∀ a b : Bytes, bytesLt a b = true ↔ Asc a b
  | [], [] => ⟨fun h => by simp [bytesLt] at h, nofun⟩
  | [], b :: t => ⟨fun _ => .nil b t, fun _ => rfl⟩
  | _ :: _, [] => ⟨fun h => by simp [bytesLt] at h, nofun⟩
  | a :: s, b :: t => by
    have ih := asc_iff s t
    simp only [bytesLt, Bool.or_eq_true, decide_eq_true_eq, Bool.and_eq_true, beq_iff_eq]
    constructor
    · rintro (h | ⟨rfl, h⟩)
      · exact .head _ _ _ _ h
      · exact .tail _ _ _ (ih.1 h)
    · intro h
      cases h with
      | head _ _ _ _ h => exact .inl h
      | tail _ _ _ h => exact .inr ⟨rfl, ih.2 h⟩

theorem asc_of_not {a b : Bytes} (hne : a ≠ b) (h : bytesLt b a = false) : Asc a b := by
  rw [← asc_iff]
  cases h' : bytesLt a b with
  | true => rfl
  | false => exact absurd (bytesLt_total _ _ h' h) hne

/-! ### the list of keys -/

theorem lastPos_cons {s : Bytes} {l : List Bytes} {k : Bytes} {i : Nat} : LastPos (s :: l) k (i + 1) ↔ LastPos l k i := by
  unfold LastPos
  simp only [List.getElem?_cons_succ]
  constructor
  · rintro ⟨h1, h2⟩; exact ⟨h1, fun j hj => by have := h2 (j + 1) (by omega); simpa using this⟩
  · rintro ⟨h1, h2⟩
    refine ⟨h1, fun j hj => ?_⟩
    cases j with
    | zero => omega
    | succ j => simpa using h2 j (by omega)

theorem lastPos_zero {s : Bytes} {l : List Bytes} {k : Bytes} : LastPos (s :: l) k 0 ↔ s = k ∧ k ∉ l := by
  unfold LastPos
  simp only [List.getElem?_cons_zero, Option.some.injEq]
  refine and_congr_right fun _ => ?_
  constructor
  · intro h hm
    obtain ⟨i, hi⟩ := List.mem_iff_getElem?.1 hm
    exact h (i + 1) (by omega) (by simpa using hi)
  · intro h j hj hs
    cases j with
    | zero => omega
    | succ j => exact h (List.mem_of_getElem? (by simpa using hs))

theorem seqMapFrom_spec : ∀ (l : List Bytes) (i : Nat) (m : Bytes → Option Nat) (k : Bytes),
    (k ∉ l → seqMapFrom i l m k = m k) ∧ ∀ j, LastPos l k j → seqMapFrom i l m k = some (i + j)
  | [], i, m, k => ⟨fun _ => rfl, fun j h => by simp [LastPos] at h⟩
  | s :: l, i, m, k => by
    obtain ⟨h1, h2⟩ := seqMapFrom_spec l (i + 1) (fun k => if k = s then some i else m k) k
    unfold seqMapFrom
    constructor
    · intro hk
      rw [List.mem_cons, not_or] at hk
      rw [h1 hk.2, if_neg hk.1]
    · intro j hj
      cases j with
      | zero =>
        rw [lastPos_zero] at hj
        rw [h1 hj.2, if_pos hj.1.symm]; rfl
      | succ j => rw [h2 j (lastPos_cons.1 hj)]; congr 1; omega

theorem lastPos_exists {l : List Bytes} {k : Bytes} (h : k ∈ l) : ∃ i, LastPos l k i := by
  induction l with
  | nil => cases h
  | cons s l ih =>
    by_cases hk : k ∈ l
    · obtain ⟨i, hi⟩ := ih hk; exact ⟨i + 1, lastPos_cons.2 hi⟩
    · rcases List.mem_cons.1 h with rfl | h
      · exact ⟨0, lastPos_zero.2 ⟨rfl, hk⟩⟩
      · exact absurd h hk

theorem seqMap_pos {l : List Bytes} {k : Bytes} {i : Nat} (h : LastPos l k i) : seqMap l k = some i := by
  rw [seqMap, (seqMapFrom_spec l 0 _ k).2 i h]; congr 1; omega
theorem seqMap_none {l : List Bytes} {k : Bytes} (h : k ∉ l) : seqMap l k = none := (seqMapFrom_spec l 0 _ k).1 h

theorem listed_of_not {seq : List Bytes} {a b : Bytes} (hne : a ≠ b) (h : seqLt (seqMap seq) b a = false) : ListedBefore seq a b := by
  unfold ListedBefore
  by_cases ha : a ∈ seq
  · by_cases hb : b ∈ seq
    · obtain ⟨i, hi⟩ := lastPos_exists ha
      obtain ⟨j, hj⟩ := lastPos_exists hb
      refine .inl ⟨i, j, hi, hj, ?_⟩
      simp only [seqLt, seqMap_pos hi, seqMap_pos hj, decide_eq_false_iff_not] at h
      have : i ≠ j := by
        rintro rfl
        have := hi.1.symm.trans hj.1
        exact hne (Option.some.inj this)
      omega
    · exact .inr (.inl ⟨ha, hb⟩)
  · by_cases hb : b ∈ seq
    · obtain ⟨j, hj⟩ := lastPos_exists hb
      simp [seqLt, seqMap_none ha, seqMap_pos hj] at h
    · refine .inr (.inr ⟨ha, hb, asc_of_not hne ?_⟩)
      simpa [seqLt, seqMap_none ha, seqMap_none hb] using h

/-! ### sorting by keys -/

theorem key_ne {l : List Ent} (hn : (l.map Ent.key).Nodup) {i j : Nat} {a b : Ent} (ha : l[i]? = some a) (hb : l[j]? = some b) (hij : i ≠ j) : a.key ≠ b.key := by
  rw [List.Nodup, List.pairwise_map, List.pairwise_iff_getElem] at hn
  obtain ⟨hi, rfl⟩ := List.getElem?_eq_some_iff.1 ha
  obtain ⟨hj, rfl⟩ := List.getElem?_eq_some_iff.1 hb
  rcases Nat.lt_or_gt_of_ne hij with h' | h'
  · exact hn i j hi hj h'
  · exact (hn j i hj hi h').symm

theorem pairwise_keys {r : Ent → Ent → Prop} {l : List Ent} (hn : (l.map Ent.key).Nodup) (h : l.Pairwise r) : l.Pairwise fun a b => a.key ≠ b.key ∧ r a b := by
  rw [List.Nodup, List.pairwise_map] at hn
  exact hn.and h

theorem sortBy_keys (hS : GoodSort S) {less lt : Bytes → Bytes → Bool} (hlt : StrictWeak lt) (hl : ∀ a b, a ≠ b → less a b = lt a b) (kvs : List Ent)
    (hn : (kvs.map Ent.key).Nodup) : (sortBy S (fun a b => less a.key b.key) kvs).Pairwise fun a b => a.key ≠ b.key ∧ lt b.key a.key = false := by
  refine pairwise_keys (((sortBy_perm hS _ kvs).map Ent.key).nodup_iff.2 hn) ?_
  exact sortBy_sorted hS (on_weak hlt Ent.key) kvs fun i j a b ha hb hij => hl _ _ (key_ne hn ha hb hij)

/-- the order only looks at keys and settles every pair -/
def KeyOnly (S : SortFn) (o : Opt) (r : Bytes → Bytes → Prop) : Prop := ∀ par kvs, (kvs.map Ent.key).Nodup → (sorted S o par kvs).Pairwise fun a b => r a.key b.key

theorem sorted_default (hS : GoodSort S) (ho : o.lessFunc = some defaultStringSequence) : KeyOnly S o Asc := by
  intro par kvs hn
  rw [sorted_eq, ho]
  exact (sortBy_keys hS bytesLt_weak (fun a b h => bytesLe_ne h) kvs hn).imp fun h => asc_of_not h.1 h.2

theorem sorted_seq (hS : GoodSort S) {seq : List Bytes} (ho : orderOf o = .keys seq) (hc : o.keySeqCache = none) : KeyOnly S o (ListedBefore seq) := by
  obtain ⟨h1, h2, h3⟩ := orderOf_keys ho
  intro par kvs hn
  have : o.sequence = seqMap seq := by unfold Opt.sequence; rw [hc, h2]
  rw [sorted_eq, h1]
  simp only [h2, this]
  rw [if_pos (List.length_pos_iff.2 h3)]
  exact (sortBy_keys hS (seqLt_weak (seqMap seq)) (fun a b h => seqLess_ne h) kvs hn).imp fun h => listed_of_not h.1 h.2

theorem asc_asymm {a b : Bytes} (h : Asc a b) : ¬ Asc b a := by
  rw [← asc_iff] at h ⊢; rw [bytesLt_asymm h]; simp

theorem lastPos_unique {seq : List Bytes} {k : Bytes} {i j : Nat} (h1 : LastPos seq k i) (h2 : LastPos seq k j) : i = j :=
  Option.some.inj ((seqMap_pos h1).symm.trans (seqMap_pos h2))

theorem lastPos_mem {seq : List Bytes} {k : Bytes} {i : Nat} (h : LastPos seq k i) : k ∈ seq := List.mem_of_getElem? h.1

theorem listed_asymm {seq : List Bytes} {a b : Bytes} (h : ListedBefore seq a b) : ¬ ListedBefore seq b a := by
  rintro (⟨i, j, h1, h2, h3⟩ | ⟨h1, h2⟩ | ⟨h1, h2, h3⟩) <;> rcases h with ⟨i', j', h1', h2', h3'⟩ | ⟨h1', h2'⟩ | ⟨h1', h2', h3'⟩
  · have := lastPos_unique h1 h2'; have := lastPos_unique h2 h1'; omega
  · exact h2' (lastPos_mem h1)
  · exact h2' (lastPos_mem h1)
  · exact h2 (lastPos_mem h1')
  · exact h2 h1'
  · exact h2' h1
  · exact h1 (lastPos_mem h2')
  · exact h2 h1'
  · exact asc_asymm h3 h3'

/-! ### same contents, same document -/

theorem same_null {v w : V} (h : Same v w) : isNullV v = isNullV w := by
  cases h <;> rfl

theorem docMems_same {f g : Ent → Option ParentInfo → Doc} {p q : Option ParentInfo} : ∀ (es es' : List Ent) (fw : Bool), es.map Ent.key = es'.map Ent.key →
    (∀ e ∈ es, ∀ e' ∈ es', e.key = e'.key → isNullV e.v = isNullV e'.v ∧ ∀ p q, f e p = g e' q) →
    docMems o T p fw (es.map fun e => (e, f e)) = docMems o T q fw (es'.map fun e => (e, g e))
  | [], [], _, _, _ => rfl
  | [], _ :: _, _, h, _ => by simp at h
  | _ :: _, [], _, h, _ => by simp at h
  | e :: es, e' :: es', fw, hk, h => by
    simp only [List.map_cons, List.cons.injEq] at hk
    obtain ⟨h1, h2⟩ := h e (by simp) e' (by simp) hk.1
    have ih := fun fw => docMems_same (p := p) (q := q) es es' fw hk.2 fun x hx y hy => h x (by simp [hx]) y (by simp [hy])
    simp only [List.map_cons, docMems, h1, ih, hk.1]
    split
    · rfl
    · rw [h2]

theorem docElems_same {v w : V} {S S' : SortFn} {p q : Option ParentInfo} : ∀ (xs ys : List V) (i : Nat), xs.length = ys.length →
    (∀ (j : Nat) x y, xs[j]? = some x → ys[j]? = some y → ∀ p q, doc E S o T x p = doc E S' o T y q) →
    docElems E S o T v xs i p = docElems E S' o T w ys i q
  | [], [], _, _, _ => by unfold docElems; rfl
  | [], _ :: _, _, h, _ => by simp at h
  | _ :: _, [], _, h, _ => by simp at h
  | x :: xs, y :: ys, i, hl, h => by
    unfold docElems
    rw [h 0 x y rfl rfl _ _, docElems_same xs ys (i + 1) (by simpa using hl) fun j x y hx hy => h (j + 1) x y (by simpa using hx) (by simpa using hy)]

theorem mem_members {n kvs low} {k : Bytes} : (members (.obj n kvs low) k).isSome = true ↔ k ∈ kvs.map Ent.key := by
  simp only [members, V.child, Option.isSome_map]
  constructor
  · intro h
    obtain ⟨e, he⟩ := Option.isSome_iff_exists.1 h
    exact List.mem_map.2 ⟨e, (lookup_some_key he).2, (lookup_some_key he).1⟩
  · intro h
    obtain ⟨e, he, rfl⟩ := List.mem_map.1 h
    cases hl : lookup e.key kvs with
    | some _ => rfl
    | none => exact absurd hl (by
        clear h hl
        induction kvs with
        | nil => cases he
        | cons a kvs ih =>
          have e1 : lookup e.key (a :: kvs) = if a.key = e.key then some a else lookup e.key kvs := by cases a; rfl
          rw [e1]
          split
          · simp
          · rename_i hne
            rcases List.mem_cons.1 he with rfl | he
            · exact absurd rfl hne
            · exact ih he)

theorem members_of_mem {n kvs low} (hn : (kvs.map Ent.key).Nodup) {e : Ent} (he : e ∈ kvs) : members (.obj n kvs low) e.key = some e.v := by
  simp [members, V.child, lookup_mem_nodup hn he]

theorem same_keys {kvs kvs' : List Ent} {r : Bytes → Bytes → Prop} (hr : ∀ a b, r a b → ¬ r b a) {es es' : List Ent} (hn : (kvs.map Ent.key).Nodup) (hn' : (kvs'.map Ent.key).Nodup)
    (hk : ∀ k, k ∈ kvs.map Ent.key ↔ k ∈ kvs'.map Ent.key) (hp : es.Perm kvs) (hp' : es'.Perm kvs') (h : es.Pairwise fun a b => r a.key b.key)
    (h' : es'.Pairwise fun a b => r a.key b.key) : es.map Ent.key = es'.map Ent.key := by
  have hpp : (es.map Ent.key).Perm (es'.map Ent.key) :=
    ((hp.map _).trans ((List.perm_ext_iff_of_nodup hn hn').2 hk)).trans (hp'.map _).symm
  exact perm_sorted_unique hpp (List.pairwise_map.2 h) (List.pairwise_map.2 h') fun a _ b _ h1 h2 => absurd h2 (hr a b h1)

theorem doc_same {S S' : SortFn} {r : Bytes → Bytes → Prop} (hS : GoodSort S) (hS' : GoodSort S') (ho : KeyOnly S o r) (ho' : KeyOnly S' o r) (hr : ∀ a b, r a b → ¬ r b a)
    (v : V) : ∀ w, Same v w → Her KeysNodup v → Her KeysNodup w → ∀ p q, doc E S o T v p = doc E S' o T w q := by
  induction v using kid_ind with
  | step v ih =>
    intro w hs hv hw p q
    cases hs with
    | scalar _ h => cases v <;> first | exact h.elim | (unfold doc; rfl)
    | num src n n' h => simp [doc, numText, special, h]
    | arr xs ys hl hx =>
      conv => lhs; unfold doc
      conv => rhs; unfold doc
      rw [hl]
      split
      · rfl
      · rw [docElems_same xs ys 0 hl fun j x y h1 h2 p q => ?_]
        have m1 := List.mem_of_getElem? h1
        have m2 := List.mem_of_getElem? h2
        exact ih x m1 y (hx j x y h1 h2) (her_kid hv hv m1) (her_kid hw hw m2) p q
    | obj n kvs low n' kvs' low' hk hc =>
      have hn : (kvs.map Ent.key).Nodup := her_self hv
      have hn' : (kvs'.map Ent.key).Nodup := her_self hw
      have hkk : ∀ k, k ∈ kvs.map Ent.key ↔ k ∈ kvs'.map Ent.key := fun k => by
        rw [← mem_members (n := n) (low := low), ← mem_members (n := n') (low := low'), hk]
      by_cases h0 : kvs = []
      · have : kvs' = [] := by
          cases kvs' with
          | nil => rfl
          | cons e _ => have := (hkk e.key).2 (by simp); rw [h0] at this; cases this
        subst h0; subst this; simp [doc]
      · have h0' : kvs' ≠ [] := by
          rintro rfl
          cases kvs with
          | nil => exact h0 rfl
          | cons e _ => have := (hkk e.key).1 (by simp); cases this
        rw [doc_obj _ _ _ _ h0, doc_obj _ _ _ _ h0']
        rw [docMems_same _ _ false (same_keys hr hn hn' hkk (sorted_perm hS _ _) (sorted_perm hS' _ _) (ho p kvs hn) (ho' q kvs' hn')) ?_]
        intro e he e' he' hee
        have m1 := sorted_mem he
        have m2 := sorted_mem he'
        have hsame : Same e.v e'.v := hc e.key _ _ (members_of_mem hn m1) (by rw [hee]; exact members_of_mem hn' m2)
        exact ⟨same_null hsame, ih e.v ⟨e, m1, rfl⟩ e'.v hsame (her_kid hv hv ⟨e, m1, rfl⟩) (her_kid hw hw ⟨e', m2, rfl⟩)⟩

theorem same_errOf {v w : V} (h : Same v w) : errOf o v = errOf o w := by
  cases h with
  | scalar => rfl
  | num src n n' hs => simp [errOf, special, hs]
  | arr => rfl
  | obj => rfl

end JV
