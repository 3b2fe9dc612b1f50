import Verif.Spec.History
import Verif.Proofs.Caseless
import Verif.Proofs.Denote
import Verif.Proofs.Api
/-! Histories keep the invariants. -/
namespace JV
open Spec

/-! ## parsed values -/

mutual
theorem her_toV {E : Env} {P : V → Prop} (hs : ∀ j, P (toV E j)) : ∀ j : J, Her P (toV E j)
  | .null => by rw [her_iff]; exact ⟨hs .null, by intro s c h; simp [toV, V.child] at h⟩
  | .bool b => by rw [her_iff]; exact ⟨hs (.bool b), by intro s c h; simp [toV, V.child] at h⟩
  | .num t => by rw [her_iff]; exact ⟨hs (.num t), by intro s c h; simp [toV, V.child] at h⟩
  | .str t => by rw [her_iff]; exact ⟨hs (.str t), by intro s c h; simp [toV, V.child] at h⟩
  | .arr xs => by
    have ih := her_toVL hs xs
    rw [her_iff]
    refine ⟨hs (.arr xs), fun s c h => ?_⟩
    match s, h with
    | .idx i, h => exact ih c (List.mem_of_getElem? h)
  | .obj ms => by
    have ih := her_toVM hs ms {} (by intro e h; simp at h)
    rw [her_iff]
    refine ⟨hs (.obj ms), fun s c h => ?_⟩
    match s, h with
    | .key k, h =>
      simp only [toV, child_key] at h
      cases hl : lookup k (toVM E ms {}).kvs with
      | none => rw [hl] at h; cases h
      | some e => rw [hl] at h; cases h; exact ih e (lookup_some_key hl).2
theorem her_toVL {E : Env} {P : V → Prop} (hs : ∀ j, P (toV E j)) : ∀ (xs : List J) (c : V), c ∈ toVL E xs → Her P c
  | [], c, h => by simp [toVL] at h
  | x :: xs, c, h => by
    have h1 := her_toV hs x
    have h2 := her_toVL hs xs c
    simp [toVL] at h
    rcases h with rfl | h
    · exact h1
    · exact h2 h
theorem her_toVM {E : Env} {P : V → Prop} (hs : ∀ j, P (toV E j)) : ∀ (ms : List Mem) (st : OSt), (∀ e ∈ st.kvs, Her P e.v) →
    ∀ e ∈ (toVM E ms st).kvs, Her P e.v
  | [], st, h => h
  | ⟨k, v⟩ :: ms, st, h => by
    have h1 := her_toV hs v
    exact her_toVM hs ms _ (fun e he => by
      rcases mem_assign he with rfl | he
      · exact h1
      · exact h e he)
end

theorem good_toV (E : Env) (j : J) : GoodNode E (toV E j) := by
  cases j with
  | obj ms => exact ⟨toVM_nodup E ms {} (by simp), trivial⟩
  | _ => trivial

theorem her_unmarshal_good {E : Env} {s : Bytes} {v : V} (h : unmarshal E s = .ok v) : Her (GoodNode E) v := by
  obtain ⟨j, -, rfl⟩ := (unmarshal_iff E s v).1 h
  exact her_toV (good_toV E) j

theorem her_unmarshal_solid {E : Env} {s : Bytes} {v : V} (h : unmarshal E s = .ok v) : Her Solid v := by
  obtain ⟨j, -, rfl⟩ := (unmarshal_iff E s v).1 h
  exact her_toV (toV_exists E) j

/-! ## reordering -/

theorem perm_keys {kvs kvs' : List Ent} (h : kvs.Perm kvs') : (keys kvs).Perm (keys kvs') := h.map _

theorem perm_lookup {kvs kvs' : List Ent} (h : kvs.Perm kvs') (hn : (keys kvs).Nodup) (k : Bytes) : lookup k kvs = lookup k kvs' := by
  have hn' : (keys kvs').Nodup := (perm_keys h).nodup_iff.1 hn
  cases h1 : lookup k kvs with
  | some e =>
    obtain ⟨rfl, he⟩ := lookup_some_key h1
    rw [lookup_mem hn' (h.mem_iff.1 he)]
  | none =>
    symm
    rw [lookup_none] at h1 ⊢
    exact fun hh => h1 ((perm_keys h).mem_iff.2 hh)

theorem reorder_good {E : Env} {v w : V} (h : Reorder v w) (hv : GoodNode E v) : GoodNode E w := by
  cases h with
  | mk n kvs kvs' low low' hp hl =>
    refine ⟨(perm_keys hp).nodup_iff.1 hv.1, ?_⟩
    have hc := hv.2
    match low, low', hl with
    | none, none, _ => trivial
    | some m, some m', hl =>
      refine ⟨hl.1.nodup_iff.1 hc.1, fun l k => ?_⟩
      rw [← hl.2, hc.2]
      have := (perm_keys hp).mem_iff (a := k)
      exact and_congr this Iff.rfl

theorem reorder_child {E : Env} {v w : V} (h : Reorder v w) (hv : GoodNode E v) (s : Step) : w.child s = v.child s := by
  cases h with
  | mk n kvs kvs' low low' hp hl =>
    cases s with
    | idx i => rfl
    | key k => rw [child_key, child_key, perm_lookup hp hv.1]

theorem reorder_her_good {E : Env} {v w : V} (h : Reorder v w) (hv : Her (GoodNode E) v) : Her (GoodNode E) w := by
  rw [her_iff] at hv ⊢
  exact ⟨reorder_good h hv.1, fun s c hc => hv.2 s c (by rw [← reorder_child h hv.1]; exact hc)⟩

theorem sortArray_ok {S : SortFn} {v w : V} {less : Option (V → V → Bool)} (h : sortArray S v less = .ok w) :
    w = v ∨ ∃ xs ys, v = .arr xs ∧ w = .arr ys ∧ ∀ y ∈ ys, y ∈ xs := by
  cases less with
  | none => exact .inl (by simpa [sortArray] using h.symm)
  | some f =>
    cases v with
    | arr xs =>
      refine .inr ⟨xs, sortBy S f xs, rfl, by simpa [sortArray, isArray, onV] using h.symm, fun y hy => ?_⟩
      obtain ⟨i, -, hi⟩ := List.mem_filterMap.1 hy
      exact List.mem_of_getElem? hi
    | nilp => cases h
    | _ => exact .inl (by simpa [sortArray, isArray, onV] using h.symm)

theorem her_sort {E : Env} {P : V → Prop} (hP : Closed E P) {S : SortFn} {v w : V} {less : Option (V → V → Bool)} (h : sortArray S v less = .ok w) (hv : Her P v) : Her P w := by
  rcases sortArray_ok h with rfl | ⟨xs, ys, rfl, rfl, hs⟩
  · exact hv
  · exact (her_arr hP).2 fun y hy => (her_arr hP).1 hv y (hs y hy)

/-- every object in a built value has distinct keys and an exact index -/
theorem deepCopyL_map : ∀ xs : List V, deepCopyL xs = xs.map deepCopy
  | [] => rfl
  | x :: xs => by simp [deepCopyL, deepCopyL_map xs]

theorem deepCopyE_keys : ∀ es : List Ent, (deepCopyE es).map Ent.key = es.map Ent.key
  | [] => rfl
  | .mk k i v :: es => by simp [deepCopyE, deepCopyEnt, deepCopyE_keys es]

theorem deepCopyE_lookup (k : Bytes) : ∀ es : List Ent, lookup k (deepCopyE es) = (lookup k es).map deepCopyEnt
  | [] => rfl
  | .mk k' i v :: es => by
    have := deepCopyE_lookup k es
    simp only [deepCopyE, deepCopyEnt, lookup, Ent.key_mk]
    by_cases hk : k' = k
    · simp [hk, deepCopyEnt]
    · simp [hk, this]

theorem deepCopy_child (v : V) (s : Step) : (deepCopy v).child s = (v.child s).map deepCopy := by
  cases v with
  | obj n kvs low =>
    cases s with
    | idx i => rfl
    | key k => simp only [deepCopy, V.child, deepCopyE_lookup, Option.map_map]; congr 1; funext e; cases e; rfl
  | arr xs => cases s <;> simp [deepCopy, V.child, deepCopyL_map]
  | _ => cases s <;> simp [deepCopy, V.child]

theorem deepCopy_at : ∀ (l : List Step) (v : V), (deepCopy v).at l = (v.at l).map deepCopy
  | [], v => rfl
  | s :: l, v => by
    simp only [V.at, deepCopy_child]
    cases v.child s with
    | none => rfl
    | some c => exact deepCopy_at l c

theorem her_deepCopy {P : V → Prop} {v : V} (hP : ∀ w, P w → P (deepCopy w)) (h : Her P v) : Her P (deepCopy v) := by
  intro l c hc
  rw [deepCopy_at] at hc
  obtain ⟨w, hw, rfl⟩ := Option.map_eq_some_iff.1 hc
  exact hP w (h l w hw)

theorem good_deepCopy {E : Env} (w : V) (h : GoodNode E w) : GoodNode E (deepCopy w) := by
  cases w with
  | obj n kvs low => simp only [deepCopy, GoodNode, deepCopyE_keys]; exact ⟨h.1, trivial⟩
  | _ => exact h

theorem solid_deepCopy (w : V) (h : Solid w) : Solid (deepCopy w) := by
  cases w <;> first | exact h | exact absurd rfl h.1 | exact ⟨nofun, nofun⟩

theorem built_good {E : Env} {L : V → Prop} {v : V} (h : Built E L v) : Her (GoodNode E) v := by
  have hP := closed_good E
  induction h with
  | scalar v hs _ =>
    rw [her_iff]
    cases v with
    | obj _ _ _ => exact absurd hs id
    | arr _ => exact absurd hs id
    | _ => exact ⟨trivial, by intro s c hc; simp [V.child] at hc⟩
  | parsed s v hs => exact her_unmarshal_good hs
  | object => exact her_iff.2 ⟨hP.obj0, by intro s c hc; cases s <;> simp [newObject, V.child, lookup] at hc⟩
  | array => exact (her_arr hP).2 (by simp)
  | set v ch ps _ _ h1 h2 => exact her_set hP ps h1 h2
  | insert after v ch ps _ _ h1 h2 => exact her_insert hP after ps h1 h2
  | append beg v ch ps _ _ h1 h2 => exact her_append hP beg ps h1 h2
  | delete cl v ps _ h1 => exact her_delete hP good_nodup cl ps h1
  | read cl v ps _ h1 => exact her_getC hP cl ps h1
  | child v l c _ hc h1 => exact her_at h1 hc
  | inner v l c d _ hc _ h1 h2 => exact her_replace hP hc h1 h2
  | reorder v w _ hr h1 => exact reorder_her_good hr h1
  | sort S v less w _ hs h1 => exact her_sort hP hs h1
  | copy v _ _ h1 => exact her_deepCopy good_deepCopy h1

/-- and if no scalar it was built from is nil or NotExist, it contains neither -/
theorem built_solid {E : Env} {v : V} (h : Built E Solid v) : Her (fun v => GoodNode E v ∧ Solid v) v := by
  have hP := (closed_good E).and (closed_solid E)
  induction h with
  | scalar v hs hl =>
    rw [her_iff]
    cases v with
    | obj _ _ _ => exact absurd hs id
    | arr _ => exact absurd hs id
    | _ => exact ⟨⟨trivial, hl⟩, by intro s c hc; simp [V.child] at hc⟩
  | parsed s v hs => exact fun l c hc => ⟨her_unmarshal_good hs l c hc, her_unmarshal_solid hs l c hc⟩
  | object => exact her_iff.2 ⟨hP.obj0, by intro s c hc; cases s <;> simp [newObject, V.child, lookup] at hc⟩
  | array => exact (her_arr hP).2 (by simp)
  | set v ch ps _ _ h1 h2 => exact her_set hP ps h1 h2
  | insert after v ch ps _ _ h1 h2 => exact her_insert hP after ps h1 h2
  | append beg v ch ps _ _ h1 h2 => exact her_append hP beg ps h1 h2
  | delete cl v ps _ h1 => exact her_delete hP (fun n kvs low h => h.1.1) cl ps h1
  | read cl v ps _ h1 => exact her_getC hP cl ps h1
  | child v l c _ hc h1 => exact her_at h1 hc
  | inner v l c d _ hc _ h1 h2 => exact her_replace hP hc h1 h2
  | reorder v w _ hr h1 =>
    rw [her_iff] at h1 ⊢
    refine ⟨⟨reorder_good hr h1.1.1, by cases hr; exact ⟨nofun, nofun⟩⟩, fun s c hc => h1.2 s c (by rw [← reorder_child hr h1.1.1]; exact hc)⟩
  | sort S v less w _ hs h1 => exact her_sort hP hs h1
  | copy v _ _ h1 => exact her_deepCopy (fun w h => ⟨good_deepCopy w h.1, solid_deepCopy w h.2⟩) h1

/-! ## what caseless access finds -/

theorem members_some {n kvs low k} : (members (.obj n kvs low) k).isSome = true ↔ k ∈ keys kvs := by
  unfold members; rw [child_key, Option.isSome_map, lookup_isSome]

theorem members_none {n kvs low k} : members (.obj n kvs low) k = none ↔ k ∉ keys kvs := by
  rw [← members_some (n := n) (low := low)]; cases members (.obj n kvs low) k <;> simp

theorem findKey_picks {E : Env} {n : BitVec 32} {kvs : List Ent} {low : Low} (hc : Coh E kvs low) (k : Bytes) :
    (∃ k', (findKey E true kvs low k).2 = some k' ∧ Picks E (members (.obj n kvs low)) k k') ∨
    ((findKey E true kvs low k).2 = none ∧ ∀ k', ¬ Picks E (members (.obj n kvs low)) k k') := by
  rcases findKey_true hc k with ⟨h1, h2⟩ | ⟨h1, k', h2, h3, h4⟩ | ⟨h1, h2⟩
  · exact .inl ⟨k, h2, members_some.2 h1, .inl rfl⟩
  · exact .inl ⟨k', h2, members_some.2 h3, .inr ⟨members_none.2 h1, h4⟩⟩
  · refine .inr ⟨h1, ?_⟩
    rintro k' ⟨h3, h4⟩
    rw [members_some] at h3
    rcases h4 with rfl | ⟨-, h4⟩
    · exact h2 k' h3 rfl
    · exact h2 k' h3 h4

theorem locate_str (E : Env) (cl : Bool) (n kvs low k) : locate E cl (.obj n kvs low) (.str k) =
    (.obj n kvs (findKey E cl kvs low k).1, match (findKey E cl kvs low k).2 with | some k' => .ok (.key k') | none => .err .notFound) := by
  unfold locate
  simp only [anyToString]
  cases hf : findKey E cl kvs low k with
  | mk low' r => cases r <;> rfl

theorem locate_cstep {E : Env} {v : V} (hv : GoodNode E v) (p : Param) :
    (∃ s, (locate E true v p).2 = .ok s ∧ CStep E v p s) ∨
    ((∃ e, (locate E true v p).2 = .err e) ∧ ∀ s, ¬ CStep E v p s) ∨ ((locate E true v p).2 = .panic ∧ v = .nilp) := by
  match v, hv with
  | .arr xs, _ =>
    rw [locate_arr]
    cases hz : intOf p with
    | none => exact .inr (.inl ⟨⟨_, rfl⟩, by rintro s h; cases h with | idx _ _ z i h1 h2 => rw [hz] at h1; cases h1⟩)
    | some z =>
      simp only
      cases hi : index xs.length z with
      | none => exact .inr (.inl ⟨⟨_, rfl⟩, by rintro s h; cases h with | idx _ _ z' i h1 h2 => rw [hz] at h1; cases h1; rw [hi] at h2; cases h2⟩)
      | some i => exact .inl ⟨_, rfl, .idx _ _ _ _ hz hi⟩
  | .obj n kvs low, hv =>
    by_cases hp : ∃ k, p = .str k
    · obtain ⟨k, rfl⟩ := hp
      rw [locate_str]
      rcases findKey_picks (n := n) hv.2 k with ⟨k', h1, h2⟩ | ⟨h1, h2⟩
      · rw [h1]; exact .inl ⟨_, rfl, .key _ _ _ _ _ h2⟩
      · rw [h1]; exact .inr (.inl ⟨⟨_, rfl⟩, by rintro s h; cases h with | key _ _ _ _ k' h => exact h2 k' h⟩)
    · refine .inr (.inl ⟨?_, by rintro s h; cases h with | key _ _ _ k k' h => exact hp ⟨k, rfl⟩⟩)
      unfold locate
      cases p with
      | str k => exact absurd ⟨k, rfl⟩ hp
      | _ => exact ⟨_, rfl⟩
  | .nilp, _ => exact .inr (.inr ⟨rfl, rfl⟩)
  | .notExist, _ => exact .inr (.inl ⟨⟨_, rfl⟩, by rintro s h; cases h⟩)
  | .str _, _ => exact .inr (.inl ⟨⟨_, rfl⟩, by rintro s h; cases h⟩)
  | .num _ _, _ => exact .inr (.inl ⟨⟨_, rfl⟩, by rintro s h; cases h⟩)
  | .bool _, _ => exact .inr (.inl ⟨⟨_, rfl⟩, by rintro s h; cases h⟩)
  | .null, _ => exact .inr (.inl ⟨⟨_, rfl⟩, by rintro s h; cases h⟩)

theorem resolve1_locate (E : Env) (cl : Bool) (v : V) (p : Param) (hp : p.isSlice = false) :
    resolve1 E cl v p = ((locate E cl v p).1, do let s ← (locate E cl v p).2; pure [s]) := by
  cases p with
  | slice qs => simp [Param.isSlice] at hp
  | _ => rfl

/-- caseless resolution of a path goes step by step, or gets stuck at a step that matches nothing -/
theorem resolve_caddr {E : Env} : ∀ (ps : List Param) (v : V), ps ≠ [] → Plain ps → Her (GoodNode E) v →
    (∃ l, (resolve E true v ps).2 = .ok l ∧ CAddr E v ps l ∧ (resolve E true v ps).1.at l = v.at l) ∨
    ((∃ e, (resolve E true v ps).2 = .err e) ∧ ∃ pre p post l a, ps = pre ++ p :: post ∧ CAddr E v pre l ∧ v.at l = some a ∧ ∀ s, ¬ CStep E a p s) ∨
    ((resolve E true v ps).2 = .panic ∧ ∃ m, v.at m = some .nilp) := by
  intro ps
  induction ps with
  | nil => intro v h; exact absurd rfl h
  | cons p rest ih =>
    intro v _ hpl hv
    have hp : p.isSlice = false := hpl p (by simp)
    have hl := locate_cstep (hv [] v rfl) p
    match rest, ih with
    | [], _ =>
      rw [resolve_one, resolve1_locate _ _ _ _ hp]
      rcases hl with ⟨s, h1, h2⟩ | ⟨⟨e, h1⟩, h2⟩ | ⟨h1, rfl⟩
      · obtain ⟨c, hc⟩ := locate_child E true v p s h1
        refine .inl ⟨[s], by rw [h1]; rfl, .cons _ _ _ _ _ _ h2 hc (.nil _), ?_⟩
        simp only [V.at, locate_fst_child]
      · exact .inr (.inl ⟨⟨e, by rw [h1]; rfl⟩, [], p, [], [], v, rfl, .nil _, rfl, h2⟩)
      · exact .inr (.inr ⟨by rw [h1]; rfl, [], rfl⟩)
    | q :: qs, ih =>
      rw [resolve_cons _ _ _ _ _ _ hp]
      rcases hl with ⟨s, h1, h2⟩ | ⟨⟨e, h1⟩, h2⟩ | ⟨h1, rfl⟩
      · obtain ⟨c, hc⟩ := locate_child E true v p s h1
        rw [h1]
        simp only [hc]
        rcases ih c (by simp) (fun x hx => hpl x (by simp [hx])) ((her_iff.1 hv).2 s c hc) with ⟨l, h3, h4, h5⟩ | ⟨⟨e, h3⟩, pre, x, post, l, a, h4, h5, h6, h7⟩ | ⟨h3, m, h4⟩
        · refine .inl ⟨s :: l, by rw [h3]; rfl, .cons _ _ _ _ _ _ h2 hc h4, ?_⟩
          rw [at_put_ok (c := c) (by rw [locate_fst_child]; exact hc), h5]
          simp only [V.at, hc]
        · refine .inr (.inl ⟨⟨e, by rw [h3]; rfl⟩, p :: pre, x, post, s :: l, a, by rw [h4]; rfl, .cons _ _ _ _ _ _ h2 hc h5, ?_, h7⟩)
          simp only [V.at, hc]; exact h6
        · refine .inr (.inr ⟨by rw [h3]; rfl, s :: m, ?_⟩)
          simp only [V.at, hc]; exact h4
      · rw [h1]
        exact .inr (.inl ⟨⟨e, rfl⟩, [], p, q :: qs, [], v, rfl, .nil _, rfl, h2⟩)
      · rw [h1]
        exact .inr (.inr ⟨rfl, [], rfl⟩)

/-! ## reading shows no effect -/

theorem sameObs_iff {v w : V} : SameObs v w ↔ info v = info w ∧ ∀ s, match v.child s, w.child s with
    | some c, some d => SameObs c d
    | none, none => True
    | _, _ => False := by
  constructor
  · intro h
    refine ⟨by simpa [V.at] using h [], fun s => ?_⟩
    have h1 := fun l => h (s :: l)
    simp only [V.at] at h1
    cases hv : v.child s with
    | none =>
      cases hw : w.child s with
      | none => trivial
      | some d => have := h1 []; rw [hv, hw] at this; simp [V.at] at this
    | some c =>
      cases hw : w.child s with
      | none => have := h1 []; rw [hv, hw] at this; simp [V.at] at this
      | some d => intro l; have := h1 l; rw [hv, hw] at this; exact this
  · rintro ⟨h1, h2⟩ l
    match l with
    | [] => simp [V.at, h1]
    | s :: l =>
      simp only [V.at]
      have := h2 s
      cases hv : v.child s <;> cases hw : w.child s <;> rw [hv, hw] at this
      · exact absurd this id
      · exact absurd this id
      · exact this l

theorem SameObs.refl (v : V) : SameObs v v := fun _ => rfl
theorem SameObs.trans {a b c : V} (h : SameObs a b) (h' : SameObs b c) : SameObs a c := fun l => (h l).trans (h' l)

theorem sameObs_locate (E : Env) (cl : Bool) (v : V) (p : Param) : SameObs v (locate E cl v p).1 := by
  rw [sameObs_iff]
  constructor
  · rcases locate_fst E cl v p with h | ⟨n, kvs, low, k, rfl, h⟩
    · rw [h]
    · rw [h]; rfl
  · intro s
    rw [locate_fst_child]
    cases v.child s with
    | none => trivial
    | some c => exact SameObs.refl c

theorem info_put {v c d : V} {s : Step} (h : v.child s = some c) : info (v.put s d) = info v := by
  match v, s, h with
  | .arr xs, .idx i, h => simp [V.put, info]
  | .obj n kvs low, .key k, h =>
    simp only [V.put, info]
    congr 1
    clear h
    induction kvs with
    | nil => rfl
    | cons e kvs ih => simp only [putKey]; split <;> simp_all [Ent.key, Ent.id]

theorem sameObs_put {v w c d : V} {s : Step} (h : SameObs v w) (hw : v.child s = some c) (hd : SameObs c d) : SameObs v (w.put s d) := by
  have hh := sameObs_iff.1 h
  have hws : ∃ x, w.child s = some x := by
    have := hh.2 s
    rw [hw] at this
    cases hx : w.child s with
    | none => rw [hx] at this; exact absurd this id
    | some x => exact ⟨x, rfl⟩
  obtain ⟨x, hx⟩ := hws
  rw [sameObs_iff]
  refine ⟨by rw [hh.1, info_put hx], fun t => ?_⟩
  by_cases hst : s = t
  · subst hst; rw [child_put_self hx, hw]; exact hd
  · rw [child_put_ne hst]; exact hh.2 t

mutual
theorem sameObs_resolve1 (E : Env) (cl : Bool) : ∀ (p : Param) (v : V), SameObs v (resolve1 E cl v p).1
  | .slice qs, v => by
    match qs with
    | [] => rw [resolve1_empty]; exact sameObs_locate E cl v _
    | q :: qs => rw [resolve1_slice]; exact sameObs_resolve E cl (q :: qs) v
  | .nil, v => sameObs_locate E cl v _
  | .int i, v => sameObs_locate E cl v _
  | .uint i, v => sameObs_locate E cl v _
  | .str k, v => sameObs_locate E cl v _
  | .other, v => sameObs_locate E cl v _
termination_by structural p => p
theorem sameObs_resolve (E : Env) (cl : Bool) : ∀ (ps : List Param) (v : V), SameObs v (resolve E cl v ps).1
  | [], v => SameObs.refl v
  | p :: rest, v => by
    have h1 := sameObs_resolve1 E cl p v
    have h2 := sameObs_resolve E cl rest
    match rest with
    | [] => rw [resolve_one]; exact h1
    | q :: qs =>
      by_cases hp : p.isSlice = true
      · rw [resolve_cons_slice _ _ _ _ _ _ hp]; exact SameObs.refl v
      · rw [resolve_cons _ _ _ _ _ _ (by simpa using hp)]
        have hl := sameObs_locate E cl v p
        split
        · split
          · exact hl
          · rename_i c hc
            exact sameObs_put hl hc (h2 c)
        · exact hl
        · exact hl
        · exact hl
termination_by structural ps => ps
end

end JV
