import Verif.Proofs.SetMore
/-! Invariants of all nodes of a tree, kept by every operation. -/
namespace JV
open Spec

theorem her_iff {P : V → Prop} {v : V} : Her P v ↔ P v ∧ ∀ s c, v.child s = some c → Her P c := by
  constructor
  · intro h
    refine ⟨h [] v rfl, fun s c hc l d hd => h (s :: l) d ?_⟩
    simp only [V.at, hc]; exact hd
  · rintro ⟨h1, h2⟩ l c hc
    match l, hc with
    | [], hc => simp [V.at] at hc; subst hc; exact h1
    | s :: l, hc =>
      simp only [V.at] at hc
      cases hd : v.child s with
      | none => rw [hd] at hc; cases hc
      | some d => rw [hd] at hc; exact h2 s d hd l c hc

theorem her_at {P : V → Prop} {v c : V} {l : List Step} (h : Her P v) (hc : v.at l = some c) : Her P c := by
  intro m d hd
  exact h (l ++ m) d (by rw [at_append, hc]; exact hd)

/-- what a node predicate must satisfy to be kept by the modifying operations -/
structure Closed (E : Env) (P : V → Prop) : Prop where
  put : ∀ v s d, P v → P (v.put s d)
  arr : ∀ xs, P (.arr xs)
  obj0 : P newObject
  setKey : ∀ n kvs low k c, P (.obj n kvs low) → P (setKey E n kvs low k c)
  del : ∀ n kvs low k, P (.obj n kvs low) → P (.obj n (erase k kvs) (delCaseless E low k))
  low : ∀ cl n kvs low k, P (.obj n kvs low) → P (.obj n kvs (findKey E cl kvs low k).1)

theorem her_put {E : Env} {P : V → Prop} (hP : Closed E P) {v d : V} {s : Step} (h : Her P v) (hd : Her P d) : Her P (v.put s d) := by
  rw [her_iff] at h ⊢
  refine ⟨hP.put _ _ _ h.1, fun t c hc => ?_⟩
  by_cases hst : s = t
  · subst hst
    cases hx : v.child s with
    | some x => rw [child_put_self hx] at hc; cases hc; exact hd
    | none =>
      have : (v.put s d).child s = none := by
        match v, s, hx with
        | .obj n kvs low, .key k, hx =>
          simp only [child_key, Option.map_eq_none_iff] at hx
          simp [V.put, child_key, lookup_putKey, hx]
        | .obj n kvs low, .idx k, hx => rfl
        | .arr xs, .key k, hx => rfl
        | .arr xs, .idx i, hx => simp [V.put, child_idx] at hx ⊢; exact hx
        | .nilp, _, _ => rfl
        | .notExist, _, _ => rfl
        | .str _, _, _ => rfl
        | .num _ _, _, _ => rfl
        | .bool _, _, _ => rfl
        | .null, _, _ => rfl
      rw [this] at hc; cases hc
  · rw [child_put_ne hst] at hc
    exact h.2 t c hc

theorem her_replace {E : Env} {P : V → Prop} (hP : Closed E P) {v w a : V} : ∀ {l : List Step}, v.at l = some a → Her P v → Her P w → Her P (replace v l w) := by
  intro l
  induction l generalizing v with
  | nil => intro _ _ hw; exact hw
  | cons s l ih =>
    intro h hv hw
    simp only [V.at] at h
    cases hc : v.child s with
    | none => rw [hc] at h; cases h
    | some d =>
      rw [hc] at h
      simp only [replace, hc]
      exact her_put hP hv (ih h ((her_iff.1 hv).2 s d hc) hw)

theorem her_arr {E : Env} {P : V → Prop} (hP : Closed E P) {xs : List V} : Her P (.arr xs) ↔ ∀ x ∈ xs, Her P x := by
  rw [her_iff]
  constructor
  · rintro ⟨-, h⟩ x hx
    obtain ⟨i, hi⟩ := List.getElem?_of_mem hx
    exact h (.idx i) x hi
  · intro h
    refine ⟨hP.arr xs, fun s c hc => ?_⟩
    match s, hc with
    | .idx i, hc => exact h c (List.mem_of_getElem? hc)

theorem her_setKey {E : Env} {P : V → Prop} (hP : Closed E P) {n kvs low k c} (h : Her P (.obj n kvs low)) (hc : Her P c) :
    Her P (setKey E n kvs low k c) := by
  rw [her_iff] at h ⊢
  refine ⟨hP.setKey _ _ _ _ _ h.1, fun t d hd => ?_⟩
  by_cases hst : .key k = t
  · subst hst; rw [child_setKey_self] at hd; cases hd; exact hc
  · rw [child_setKey_ne _ _ _ _ _ _ _ hst] at hd
    exact h.2 t d hd

theorem her_fresh {E : Env} {P : V → Prop} (hP : Closed E P) {q : Param} {d : V} (h : freshFor q = some d) : Her P d := by
  rw [her_iff]
  refine ⟨?_, fun s c hc => by rw [fresh_child h] at hc; cases hc⟩
  rcases freshFor_not_uninit h with rfl | rfl
  · exact hP.obj0
  · exact hP.arr _

theorem her_setsTo {E : Env} {P : V → Prop} (hP : Closed E P) {c v v' : V} {ps : List Param} {l : List Step} (h : SetsTo E c v ps v' l) (hc : Her P c) :
    Her P v → Her P v' := by
  induction h with
  | slice v q qs v' l h ih => exact ih
  | key n kvs low k => intro h; exact her_setKey hP h hc
  | idx xs p z i _ hz hi =>
    intro h; exact her_put (s := .idx i) hP h hc
  | idxEnd xs p _ hz =>
    intro h
    rw [her_arr hP] at h ⊢
    intro x hx
    simp at hx
    rcases hx with hx | rfl
    · exact h x hx
    · exact hc
  | keyIn n kvs low k d q qs d' l h1 h2 ih => intro h; exact her_put hP h (ih ((her_iff.1 h).2 _ _ h1))
  | keyNew n kvs low k d q qs d' l h1 hf h2 ih => intro h; exact her_setKey hP h (ih (her_fresh hP hf))
  | idxIn xs p z i d q qs d' l hz hi h1 h2 ih => intro h; exact her_put hP h (ih ((her_iff.1 h).2 _ _ h1))
  | idxNew xs p z d q qs d' l hz hi hf h2 ih =>
    intro h
    rw [her_arr hP] at h ⊢
    intro x hx
    simp at hx
    rcases hx with hx | rfl
    · exact h x hx
    · exact ih (her_fresh hP hf)

theorem her_set {E : Env} {P : V → Prop} (hP : Closed E P) {v : V} {ch : Ch} (ps : List Param) (hv : Her P v) (hc : Her P ch.c) : Her P (set E v ch ps).1 := by
  by_cases hne : ps = []
  · subst hne; unfold set; cases ch.err <;> simpa [setAt] using hv
  · rcases set_spec E v ch ps hne with ⟨m, -, -, h2⟩ | ⟨e, h1⟩
    · exact her_setsTo hP h2 hc hv
    · rw [h1]; exact hv

theorem her_ins {E : Env} {P : V → Prop} (hP : Closed E P) {xs : List V} {c : V} (i : Nat) (h : Her P (.arr xs)) (hc : Her P c) :
    Her P (.arr (xs.take i ++ c :: xs.drop i)) := by
  rw [her_arr hP] at h ⊢
  intro x hx
  simp at hx
  rcases hx with hx | rfl | hx
  · exact h x (List.mem_of_mem_take hx)
  · exact hc
  · exact h x (List.mem_of_mem_drop hx)

theorem her_insert {E : Env} {P : V → Prop} (hP : Closed E P) (after : Bool) {v : V} {ch : Ch} (ps : List Param) (hv : Her P v) (hc : Her P ch.c) :
    Her P (insert E after v ch ps).1 := by
  unfold insert
  cases hce : ch.err with
  | some e => exact hv
  | none =>
    simp only
    by_cases hne : ps = []
    · subst hne; simpa [insertAt] using hv
    · rcases insertAt_out E after ch.c ps v [] hne with ⟨l, xs, ys, i, -, h2, ⟨-, rfl⟩, h4⟩ | ⟨e, h1⟩ | ⟨h1, -⟩
      · rw [h4]; exact her_replace hP h2 hv (her_ins hP i (her_at hv h2) hc)
      · rw [h1]; exact hv
      · rw [h1]; exact hv

theorem her_append {E : Env} {P : V → Prop} (hP : Closed E P) (beg : Bool) {v : V} {ch : Ch} (ps : List Param) (hv : Her P v) (hc : Her P ch.c) :
    Her P (append E beg v ch ps).1 := by
  unfold append
  rcases appendAt_out E beg ch.c ps v with ⟨l, xs, ys, i, -, h2, h3, h4⟩ | ⟨ps', v1, l, -, h2, h3⟩ | ⟨e, h1⟩ | ⟨h1, -⟩
  · rw [h4]
    refine her_replace hP h2 hv ?_
    have hx := her_at hv h2
    unfold ApdP at h3
    rw [her_arr hP] at hx ⊢
    cases beg
    · simp at h3; rw [h3.2]
      intro x hx'
      simp at hx'
      rcases hx' with hx' | rfl
      · exact hx x hx'
      · exact hc
    · simp at h3; rw [h3.2]
      intro x hx'
      simp at hx'
      rcases hx' with rfl | hx'
      · exact hc
      · exact hx x hx'
  · rw [h3]
    have h0 : Her P newArray := (her_arr hP).2 (by simp)
    refine her_replace hP (setsTo_at h2) (her_setsTo hP h2 h0 hv) ?_
    rw [her_arr hP]; intro x hx; simp at hx; subst hx; exact hc
  · rw [h1]; exact hv
  · rw [h1]; exact hv

/-! ## caseless lookups -/

theorem findKey_cases (E : Env) (cl : Bool) (kvs low key) : (∃ k, (findKey E cl kvs low key).2 = some k ∧ (lookup k kvs).isSome = true) ∨
    ((findKey E cl kvs low key).2 = none ∧ lookup key kvs = none) := by
  have hfp : ∀ ks k, firstPresent kvs ks = some k → (lookup k kvs).isSome = true := by
    intro ks
    induction ks with
    | nil => intro k h; simp [firstPresent] at h
    | cons x xs ih =>
      intro k h
      simp only [firstPresent] at h
      split at h
      · simp at h; subst h; assumption
      · exact ih k h
  unfold findKey
  split
  · exact .inl ⟨key, rfl, by assumption⟩
  · rename_i hn
    have hn : lookup key kvs = none := by simpa using hn
    split
    · exact .inr ⟨rfl, hn⟩
    · simp only
      split
      · exact .inr ⟨rfl, hn⟩
      · rename_i ks _
        cases hf : firstPresent kvs ks with
        | none => exact .inr ⟨by simp, hn⟩
        | some k => exact .inl ⟨k, by simp, hfp _ _ hf⟩

/-- one lookup changes at most the cache of this node -/
theorem locate_fst (E : Env) (cl : Bool) (v : V) (p : Param) :
    (locate E cl v p).1 = v ∨ ∃ n kvs low k, v = .obj n kvs low ∧ (locate E cl v p).1 = .obj n kvs (findKey E cl kvs low k).1 := by
  match v with
  | .arr xs => left; rw [locate_arr]
  | .obj n kvs low =>
    unfold locate
    cases p with
    | str k =>
      right
      refine ⟨n, kvs, low, k, rfl, ?_⟩
      simp only [anyToString]
      cases hf : findKey E cl kvs low k with
      | mk low' r => cases r <;> rfl
    | _ => left; rfl
  | .nilp => left; rfl
  | .notExist => left; rfl
  | .str _ => left; rfl
  | .num _ _ => left; rfl
  | .bool _ => left; rfl
  | .null => left; rfl

theorem child_low (n kvs low low' s) : (V.obj n kvs low).child s = (V.obj n kvs low').child s := by
  cases s <;> rfl

theorem locate_fst_child (E : Env) (cl : Bool) (v : V) (p : Param) (s : Step) : (locate E cl v p).1.child s = v.child s := by
  rcases locate_fst E cl v p with h | ⟨n, kvs, low, k, rfl, h⟩
  · rw [h]
  · rw [h]; exact child_low ..

theorem her_locate {E : Env} {P : V → Prop} (hP : Closed E P) (cl : Bool) {v : V} (p : Param) (h : Her P v) : Her P (locate E cl v p).1 := by
  rcases locate_fst E cl v p with h' | ⟨n, kvs, low, k, rfl, h'⟩
  · rw [h']; exact h
  · rw [h']
    rw [her_iff] at h ⊢
    exact ⟨hP.low cl n kvs low k h.1, fun s c hc => h.2 s c (by rw [child_low n kvs low (findKey E cl kvs low k).1]; exact hc)⟩

/-- what `resolve` gives for a list of two or more parameters -/
theorem resolve_cons (E : Env) (cl : Bool) (v : V) (p q : Param) (qs : List Param) (hp : p.isSlice = false) :
    resolve E cl v (p :: q :: qs) = match (locate E cl v p).2 with
      | .ok s => match v.child s with
        | none => ((locate E cl v p).1, .panic)
        | some c => ((locate E cl v p).1.put s (resolve E cl c (q :: qs)).1, do let l ← (resolve E cl c (q :: qs)).2; pure (s :: l))
      | .err e => ((locate E cl v p).1, .err e)
      | .panic => ((locate E cl v p).1, .panic)
      | .diverge => ((locate E cl v p).1, .diverge) := by
  conv => lhs; unfold resolve
  rw [if_neg (by simp), if_neg (by simp [hp])]
  have hc := locate_fst_child E cl v p
  cases hl : locate E cl v p with
  | mk w r =>
    rw [hl] at hc
    cases r with
    | ok s => simp only at hc ⊢; rw [hc s]; cases v.child s <;> rfl
    | err e => rfl
    | panic => rfl
    | diverge => rfl

theorem resolve_cons_slice (E : Env) (cl : Bool) (v : V) (p q : Param) (qs : List Param) (hp : p.isSlice = true) :
    resolve E cl v (p :: q :: qs) = (v, .err .multipleParam) := by
  conv => lhs; unfold resolve
  rw [if_neg (by simp), if_pos hp]

mutual
theorem her_resolve1 {E : Env} {P : V → Prop} (hP : Closed E P) (cl : Bool) : ∀ (p : Param) (v : V), Her P v → Her P (resolve1 E cl v p).1
  | .slice qs, v, h => by
    match qs with
    | [] => rw [resolve1_empty]; exact her_locate hP cl _ h
    | q :: qs => rw [resolve1_slice]; exact her_resolve hP cl (q :: qs) v h
  | .nil, v, h => her_locate hP cl _ h
  | .int i, v, h => her_locate hP cl _ h
  | .uint i, v, h => her_locate hP cl _ h
  | .str k, v, h => her_locate hP cl _ h
  | .other, v, h => her_locate hP cl _ h
termination_by structural p => p
theorem her_resolve {E : Env} {P : V → Prop} (hP : Closed E P) (cl : Bool) : ∀ (ps : List Param) (v : V), Her P v → Her P (resolve E cl v ps).1
  | [], v, h => h
  | p :: rest, v, h => by
    have h1 := her_resolve1 hP cl p v h
    have h2 := her_resolve hP cl rest
    match rest with
    | [] => rw [resolve_one]; exact h1
    | q :: qs =>
      by_cases hp : p.isSlice = true
      · rw [resolve_cons_slice _ _ _ _ _ _ hp]; exact h
      · rw [resolve_cons _ _ _ _ _ _ (by simpa using hp)]
        split
        · split
          · exact her_locate hP cl p h
          · rename_i s _ _ c hc
            exact her_put hP (her_locate hP cl p h) (h2 c ((her_iff.1 h).2 s c hc))
        · exact her_locate hP cl p h
        · exact her_locate hP cl p h
        · exact her_locate hP cl p h
termination_by structural ps => ps
end

/-- reading keeps the invariant, also caseless -/
theorem her_getC {E : Env} {P : V → Prop} (hP : Closed E P) (cl : Bool) {v : V} (ps : List Param) (h : Her P v) : Her P (getC E cl v ps).1 :=
  her_resolve hP cl ps v h

theorem her_del {E : Env} {P : V → Prop} (hP : Closed E P) {n kvs low k} (hn : (keys kvs).Nodup) (h : Her P (.obj n kvs low)) :
    Her P (.obj n (erase k kvs) (delCaseless E low k)) := by
  rw [her_iff] at h ⊢
  refine ⟨hP.del n kvs low k h.1, fun s c hc => ?_⟩
  match s, hc with
  | .key k', hc =>
    rw [child_key, lookup_erase _ _ _ hn] at hc
    by_cases hk : k = k'
    · simp [hk] at hc
    · simp only [hk, if_false] at hc
      exact h.2 (.key k') c hc

theorem her_eraseIdx {E : Env} {P : V → Prop} (hP : Closed E P) {xs : List V} (i : Nat) (h : Her P (.arr xs)) : Her P (.arr (xs.eraseIdx i)) := by
  rw [her_arr hP] at h ⊢
  intro x hx
  exact h x (List.mem_of_mem_eraseIdx hx)

theorem her_deleteLast {E : Env} {P : V → Prop} (hP : Closed E P) (hn : ∀ n kvs low, P (.obj n kvs low) → (keys kvs).Nodup)
    (cl : Bool) {v : V} (p : Param) (h : Her P v) : Her P (deleteLast E cl v p).1 := by
  match v, h with
  | .arr xs, h =>
    rw [deleteLast_arr]
    split
    · exact h
    · split
      · exact h
      · exact her_eraseIdx hP _ h
  | .obj n kvs low, h =>
    unfold deleteLast
    cases p with
    | str k =>
      simp only [anyToString, delKey]
      have hl := hP.low cl n kvs low k (her_iff.1 h).1
      have hl' : Her P (.obj n kvs (findKey E cl kvs low k).1) := by
        rw [her_iff] at h ⊢
        exact ⟨hl, fun s c hc => h.2 s c (by rw [child_low n kvs low (findKey E cl kvs low k).1]; exact hc)⟩
      cases hf : findKey E cl kvs low k with
      | mk low' r =>
        rw [hf] at hl'
        cases r with
        | none => exact hl'
        | some k' => exact her_del hP (hn _ _ _ (her_iff.1 h).1) hl'
    | _ => exact h
  | .nilp, h => exact h
  | .notExist, h => exact h
  | .str _, h => exact h
  | .num _ _, h => exact h
  | .bool _, h => exact h
  | .null, h => exact h

/-- a location that caseless or plain resolution reports exists -/
theorem locate_child (E : Env) (cl : Bool) (v : V) (p : Param) (s : Step) (h : (locate E cl v p).2 = .ok s) : ∃ c, v.child s = some c := by
  match v, h with
  | .arr xs, h =>
    rw [locate_arr] at h
    cases hz : intOf p with
    | none => simp [hz] at h
    | some z =>
      simp only [hz] at h
      cases hi : index xs.length z with
      | none => simp [hi] at h
      | some i => simp [hi] at h; subst h; exact ⟨_, List.getElem?_eq_getElem (index_lt hi)⟩
  | .obj n kvs low, h =>
    unfold locate at h
    cases p with
    | str k =>
      simp only [anyToString] at h
      have := findKey_cases E cl kvs low k
      cases hf : findKey E cl kvs low k with
      | mk low' r =>
        rw [hf] at h this
        cases r with
        | none => simp at h
        | some k' =>
          simp at h this
          subst h
          obtain ⟨e, he⟩ := Option.isSome_iff_exists.1 this
          exact ⟨e.v, by simp [child_key, he]⟩
    | _ => simp [anyToString] at h
  | .nilp, h => simp [locate] at h
  | .notExist, h => simp [locate] at h
  | .str _, h => simp [locate] at h
  | .num _ _, h => simp [locate] at h
  | .bool _, h => simp [locate] at h
  | .null, h => simp [locate] at h

theorem at_put_ok {v c d : V} {s : Step} (h : v.child s = some c) (l : List Step) : (v.put s d).at (s :: l) = d.at l := by
  simp only [V.at, child_put_self h]

theorem locate_at (E : Env) (cl : Bool) (v : V) (p : Param) {l : List Step} (h : (do let s ← (locate E cl v p).2; pure [s] : R (List Step)) = .ok l) :
    ∃ c, (locate E cl v p).1.at l = some c := by
  cases hs : (locate E cl v p).2 with
  | ok s =>
    rw [hs] at h; simp at h; subst h
    obtain ⟨c, hc⟩ := locate_child E cl v p s hs
    exact ⟨c, by simp only [V.at, locate_fst_child, hc]⟩
  | err e => rw [hs] at h; simp at h
  | panic => rw [hs] at h; simp at h
  | diverge => rw [hs] at h; simp at h

mutual
theorem resolve1_at (E : Env) (cl : Bool) : ∀ (p : Param) (v : V) (l : List Step), (resolve1 E cl v p).2 = .ok l → ∃ c, (resolve1 E cl v p).1.at l = some c
  | .slice qs, v, l, h => by
    match qs, h with
    | [], h => rw [resolve1_empty] at h ⊢; exact locate_at E cl v _ h
    | q :: qs, h => rw [resolve1_slice] at h ⊢; exact resolve_at E cl (q :: qs) v l h
  | .nil, v, l, h => locate_at E cl v _ h
  | .int i, v, l, h => locate_at E cl v _ h
  | .uint i, v, l, h => locate_at E cl v _ h
  | .str k, v, l, h => locate_at E cl v _ h
  | .other, v, l, h => locate_at E cl v _ h
termination_by structural p => p
theorem resolve_at (E : Env) (cl : Bool) : ∀ (ps : List Param) (v : V) (l : List Step), (resolve E cl v ps).2 = .ok l → ∃ c, (resolve E cl v ps).1.at l = some c
  | [], v, l, h => by simp [resolve] at h
  | p :: rest, v, l, h => by
    have h1 := resolve1_at E cl p v l
    have h2 := resolve_at E cl rest
    match rest with
    | [] => rw [resolve_one] at h ⊢; exact h1 h
    | q :: qs =>
      by_cases hp : p.isSlice = true
      · rw [resolve_cons_slice _ _ _ _ _ _ hp] at h; simp at h
      · rw [resolve_cons _ _ _ _ _ _ (by simpa using hp)] at h ⊢
        cases hs : (locate E cl v p).2 with
        | ok s =>
          obtain ⟨c, hc⟩ := locate_child E cl v p s hs
          simp only [hs, hc] at h ⊢
          cases hr : (resolve E cl c (q :: qs)).2 with
          | ok m =>
            rw [hr] at h
            simp at h
            subst h
            rw [at_put_ok (c := c) (by rw [locate_fst_child]; exact hc)]
            exact h2 c m hr
          | err e => rw [hr] at h; simp at h
          | panic => rw [hr] at h; simp at h
          | diverge => rw [hr] at h; simp at h
        | err e => simp [hs] at h
        | panic => simp [hs] at h
        | diverge => simp [hs] at h
termination_by structural ps => ps
end

theorem deleteAt_last' (E : Env) (cl : Bool) (v : V) (a : Param) (pre : List Param) (p : Param) :
    deleteAt E cl v (a :: pre) [p] =
      if a.isSlice then (v, .err .multipleParam)
      else match (resolve E cl v (a :: pre)).2 with
        | .ok l => (resolve E cl v (a :: pre)).1.modify (fun w => deleteAt1 E cl w p) l
        | .err e => ((resolve E cl v (a :: pre)).1, .err e)
        | .panic => ((resolve E cl v (a :: pre)).1, .panic)
        | .diverge => ((resolve E cl v (a :: pre)).1, .diverge) := by
  conv => lhs; unfold deleteAt
  rw [if_neg (by simp)]
  simp only
  cases hr : resolve E cl v (a :: pre) with
  | mk w r => cases r <;> rfl

mutual
theorem her_deleteAt1 {E : Env} {P : V → Prop} (hP : Closed E P) (hn : ∀ n kvs low, P (.obj n kvs low) → (keys kvs).Nodup) (cl : Bool) :
    ∀ (p : Param) (v : V), Her P v → Her P (deleteAt1 E cl v p).1
  | .slice qs, v, h => by
    match qs with
    | [] => rw [deleteAt1_empty]; exact her_deleteLast hP hn cl _ h
    | q :: qs => rw [deleteAt1_slice]; exact her_deleteAt hP hn cl (q :: qs) v [] h
  | .nil, v, h => her_deleteLast hP hn cl _ h
  | .int i, v, h => her_deleteLast hP hn cl _ h
  | .uint i, v, h => her_deleteLast hP hn cl _ h
  | .str k, v, h => her_deleteLast hP hn cl _ h
  | .other, v, h => her_deleteLast hP hn cl _ h
termination_by structural p => p
theorem her_deleteAt {E : Env} {P : V → Prop} (hP : Closed E P) (hn : ∀ n kvs low, P (.obj n kvs low) → (keys kvs).Nodup) (cl : Bool) :
    ∀ (ps : List Param) (v : V) (pre : List Param), Her P v → Her P (deleteAt E cl v pre ps).1
  | [], v, pre, h => h
  | p :: rest, v, pre, h => by
    have h1 := her_deleteAt1 hP hn cl p
    have h2 := her_deleteAt hP hn cl rest v
    match rest with
    | q :: qs =>
      unfold deleteAt
      rw [if_pos (by simp)]
      exact h2 _ h
    | [] =>
      match pre with
      | [] => rw [deleteAt_one]; exact h1 v h
      | a :: pre =>
        rw [deleteAt_last']
        by_cases ha : a.isSlice = true
        · rw [if_pos ha]; exact h
        · rw [if_neg ha]
          have hr := her_resolve hP cl (a :: pre) v h
          cases hs : (resolve E cl v (a :: pre)).2 with
          | ok l =>
            obtain ⟨w, hw⟩ := resolve_at E cl _ v l hs
            simp only
            rw [modify_eq _ hw]
            exact her_replace hP hw hr (h1 w (her_at hr hw))
          | err e => exact hr
          | panic => exact hr
          | diverge => exact hr
termination_by structural ps => ps
end

theorem her_delete {E : Env} {P : V → Prop} (hP : Closed E P) (hn : ∀ n kvs low, P (.obj n kvs low) → (keys kvs).Nodup) (cl : Bool)
    {v : V} (ps : List Param) (h : Her P v) : Her P (delete E cl v ps).1 := her_deleteAt hP hn cl ps v [] h

end JV
