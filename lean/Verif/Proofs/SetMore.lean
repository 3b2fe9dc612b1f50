import Verif.Proofs.Modify
/-! Consequences of the description of Set, for the properties. -/
namespace JV
open Spec

theorem fresh_not_skips {q : Param} {qs : List Param} {d : V} (h : freshFor q = some d) : ¬ Skips d (q :: qs) := by
  intro hs
  cases hs with
  | slice _ q qs h' => simp [freshFor, intOf] at h
  | here xs p z q' qs' hz hi h3 =>
    have : q = q := rfl
    cases q <;> simp [intOf] at hz <;> simp [freshFor, intOf, newArray] at h
    all_goals
      obtain ⟨h0, rfl⟩ := h
      rw [h0] at hz; subst hz
      exact h3 (index_end 0)
  | key n kvs low k c q' qs' h1 h2 => rw [fresh_child h] at h1; cases h1
  | idx xs p z i c q' qs' hz hi h1 h2 => rw [fresh_child h] at h1; cases h1

theorem setsTo_addr {E : Env} {c v v' : V} {ps : List Param} {l : List Step} (h : SetsTo E c v ps v' l) : ¬ Skips v ps → Addr v' ps l := by
  induction h with
  | slice v q qs v' l h ih => intro hs; exact .slice _ _ _ _ (ih fun h' => hs (.slice _ _ _ h'))
  | key n kvs low k hc => intro _; exact .key _ _ _ _ c (child_setKey_self ..)
  | idx xs p z i hc hz hi => intro _; exact .idx _ _ _ _ hz (by rw [List.length_set]; exact hi)
  | idxEnd xs p hc hz => intro _; exact .idx _ _ _ _ hz (by rw [List.length_append]; exact index_end _)
  | keyIn n kvs low k d q qs d' l h1 h2 ih =>
    intro hs
    exact .keyCons _ _ _ _ d' _ _ _ (child_put_self h1) (ih fun h' => hs (.key _ _ _ _ _ _ _ h1 h'))
  | keyNew n kvs low k d q qs d' l h1 hf h2 ih =>
    intro _
    exact .keyCons _ _ _ _ d' _ _ _ (child_setKey_self ..) (ih (fresh_not_skips hf))
  | idxIn xs p z i d q qs d' l hz hi h1 h2 ih =>
    intro hs
    refine .idxCons _ _ _ _ d' _ _ _ hz ?_ (child_put_self h1) (ih fun h' => hs (.idx _ _ _ _ _ _ _ hz hi h1 h'))
    rw [List.length_set]; exact hi
  | idxNew xs p z d q qs d' l hz hi hf h2 ih =>
    intro hs
    have hn : index (xs.length + 1) z = some xs.length := by
      apply Classical.byContradiction
      intro h
      exact hs (.here _ _ _ _ _ hz hi h)
    refine .idxCons _ _ _ _ d' _ _ _ hz (by rw [List.length_append]; exact hn) ?_ (ih (fresh_not_skips hf))
    simp [child_idx]

/-! paths of keys and non-negative indexes -/

theorem stepParam_int {i : Nat} (h : i < 2 ^ 63) : intOf (stepParam (.idx i)) = some (i : Int) := by
  simp only [stepParam, intOf]
  rw [BitVec.toInt_eq_toNat_of_lt (by simp; omega)]
  simp; omega

theorem index_nat {n i j : Nat} : index n (i : Int) = some j ↔ i = j ∧ i < n := by
  unfold index
  split
  · simp; omega
  · split
    · omega
    · simp; omega

theorem small_cons {s : Step} {l : List Step} (h : Small (s :: l)) : Small l := fun i hi => h i (List.mem_cons_of_mem _ hi)

/-- a path of keys and indexes addresses the location it names, if there is one -/
theorem addr_pathOf : ∀ {m l : List Step} {v : V}, Small m → (Addr v (pathOf m) l ↔ m = l ∧ m ≠ [] ∧ ∃ c, v.at m = some c) := by
  intro m
  induction m with
  | nil => intro l v _; constructor
           · intro h; cases h
           · intro h; exact absurd rfl h.2.1
  | cons s m ih =>
    intro l v hs
    have ih := @ih
    constructor
    · intro h
      match s, m, h with
      | .key k, [], h =>
        cases h with
        | key n kvs low k c h' => exact ⟨rfl, by simp, c, by simp [V.at, h']⟩
        | idx xs p z i hz hi => simp [stepParam, intOf] at hz
      | .idx i, [], h =>
        cases h with
        | idx xs p z j hz hi =>
          rw [stepParam_int (hs i (by simp))] at hz
          cases hz
          obtain ⟨rfl, hlt⟩ := index_nat.1 hi
          exact ⟨rfl, by simp, xs[i], by simp [V.at, child_idx, hlt]⟩
      | .key k, t :: m, h =>
        cases h with
        | keyCons n kvs low k c q qs l h1 h2 =>
          obtain ⟨rfl, -, c', hc'⟩ := (ih (small_cons hs)).1 h2
          exact ⟨rfl, by simp, c', by simpa [V.at, h1] using hc'⟩
        | idxCons xs p z i c q qs l hz => simp [stepParam, intOf] at hz
      | .idx i, t :: m, h =>
        cases h with
        | idxCons xs p z j c q qs l hz hi h1 h2 =>
          rw [stepParam_int (hs i (by simp))] at hz
          cases hz
          obtain ⟨rfl, hlt⟩ := index_nat.1 hi
          obtain ⟨rfl, -, c', hc'⟩ := (ih (small_cons hs)).1 h2
          exact ⟨rfl, by simp, c', by simpa [V.at, h1] using hc'⟩
    · rintro ⟨rfl, -, c, hc⟩
      simp only [V.at] at hc
      cases hd : v.child s with
      | none => rw [hd] at hc; simp at hc
      | some d =>
        rw [hd] at hc
        simp only at hc
        rcases child_some_cases hd with ⟨n, kvs, low, k, e, rfl, rfl, h1, h2⟩ | ⟨xs, i, rfl, rfl, h1⟩
        · match m, hc with
          | [], hc => exact .key _ _ _ _ _ hd
          | t :: m, hc => exact .keyCons _ _ _ _ _ _ _ _ hd ((ih (small_cons hs)).2 ⟨rfl, by simp, c, hc⟩)
        · have hz := stepParam_int (hs i (by simp))
          have hi : index xs.length (i : Int) = some i := index_nat.2 ⟨rfl, by rw [List.getElem?_eq_some_iff] at h1; exact h1.1⟩
          match m, hc with
          | [], hc => exact .idx _ _ _ _ hz hi
          | t :: m, hc => exact .idxCons _ _ _ _ _ _ _ _ hz hi hd ((ih (small_cons hs)).2 ⟨rfl, by simp, c, hc⟩)

theorem get_pathOf (E : Env) {m : List Step} {v c : V} (hs : Small m) (hne : m ≠ []) : get E v (pathOf m) = .ok c ↔ v.at m = some c := by
  rw [get_iff]
  constructor
  · rintro ⟨l, hl, hc⟩
    obtain ⟨rfl, -, -⟩ := (addr_pathOf hs).1 hl
    exact hc
  · intro h
    exact ⟨m, (addr_pathOf hs).2 ⟨rfl, hne, c, h⟩, h⟩

/-! what is on the way -/

theorem at_none_of_child {v : V} {s : Step} {m : List Step} (h : v.child s = none) : v.at (s :: m) = none := by simp [V.at, h]

theorem made_lift {v v' d d' : V} {s t : Step} {m : List Step} (h1 : v.child s = some d) (h2 : v'.child s = some d') (h : Made d d' m t) :
    Made v v' (s :: m) t := by
  cases h with
  | inObj k n kvs low n' kvs' low' h3 h4 => exact .inObj _ _ _ _ _ _ _ (by simp only [V.at, h1]; exact h3) (by simp only [V.at, h2]; exact h4)
  | inArr i xs ys h3 h4 h5 => exact .inArr _ _ _ (by simp only [V.at, h1]; exact h3) (by simp only [V.at, h2]; exact h4) h5
  | newObj k c h3 h4 => exact .newObj _ _ (by simp only [V.at, h1]; exact h3) (by simp only [V.at, h2]; exact h4)
  | newArr c h3 h4 => exact .newArr _ (by simp only [V.at, h1]; exact h3) (by simp only [V.at, h2]; exact h4)

theorem setsTo_fresh {E : Env} {c d d' : V} {q : Param} {qs : List Param} {l : List Step} (hf : freshFor q = some d)
    (h : SetsTo E c d (q :: qs) d' l) : (∃ k x m, l = .key k :: m ∧ d' = .obj 1 [⟨k, 1, x⟩] none) ∨ (∃ x m, l = .idx 0 :: m ∧ d' = .arr [x]) := by
  cases h with
  | slice v q qs v' l h => simp [freshFor, intOf] at hf
  | key n kvs low k hc =>
    simp [freshFor, newObject] at hf
    obtain ⟨rfl, rfl, rfl⟩ := hf
    exact .inl ⟨k, c, [], rfl, rfl⟩
  | idx xs p z i hc hz hi =>
    rcases freshFor_not_uninit hf with h | h
    · cases h
    · cases h; exact absurd (index_lt hi) (Nat.not_lt_zero _)
  | idxEnd xs p hc hz =>
    rcases freshFor_not_uninit hf with h | h
    · cases h
    · cases h; exact .inr ⟨c, [], rfl, rfl⟩
  | keyIn n kvs low k d q qs d' l h1 h2 => rw [fresh_child hf] at h1; cases h1
  | keyNew n kvs low k d q qs d' l h1 hf' h2 =>
    simp [freshFor, newObject] at hf
    obtain ⟨rfl, rfl, rfl⟩ := hf
    exact .inl ⟨k, d', l, rfl, rfl⟩
  | idxIn xs p z i d q qs d' l hz hi h1 h2 => rw [fresh_child hf] at h1; cases h1
  | idxNew xs p z d q qs d' l hz hi hf' h2 =>
    rcases freshFor_not_uninit hf with h | h
    · cases h
    · cases h; exact .inr ⟨d', l, rfl, rfl⟩

/-- every container on the path was there, or is new and has exactly the one member the path goes through -/
theorem setsTo_made {E : Env} {c v v' : V} {ps : List Param} {l : List Step} (h : SetsTo E c v ps v' l) :
    ∀ m s r, l = m ++ s :: r → Made v v' m s := by
  induction h with
  | slice v q qs v' l h ih => exact ih
  | key n kvs low k hc =>
    intro m s r h
    match m, h with
    | [], h => simp at h; obtain ⟨rfl, rfl⟩ := h; exact .inObj _ _ _ _ _ _ _ rfl rfl
    | _ :: m, h => simp at h
  | idx xs p z i hc hz hi =>
    intro m s r h
    match m, h with
    | [], h => simp at h; obtain ⟨rfl, rfl⟩ := h; exact .inArr _ _ _ rfl rfl (Nat.le_of_lt (index_lt hi))
    | _ :: m, h => simp at h
  | idxEnd xs p hc hz =>
    intro m s r h
    match m, h with
    | [], h => simp at h; obtain ⟨rfl, rfl⟩ := h; exact .inArr _ _ _ rfl rfl (Nat.le_refl _)
    | _ :: m, h => simp at h
  | keyIn n kvs low k d q qs d' l h1 h2 ih =>
    intro m s r h
    match m, h with
    | [], h => simp at h; obtain ⟨rfl, rfl⟩ := h; exact .inObj _ _ _ _ _ _ _ rfl rfl
    | _ :: m, h => simp at h; obtain ⟨rfl, rfl⟩ := h; exact made_lift h1 (child_put_self h1) (ih m s r rfl)
  | keyNew n kvs low k d q qs d' l h1 hf h2 ih =>
    intro m s r h
    match m, h with
    | [], h => simp at h; obtain ⟨rfl, rfl⟩ := h; exact .inObj _ _ _ _ _ _ _ rfl rfl
    | t :: m, h =>
      simp at h
      obtain ⟨rfl, rfl⟩ := h
      match hm : m with
      | [] =>
        rcases setsTo_fresh hf h2 with ⟨k', x, m', he, hd⟩ | ⟨x, m', he, hd⟩
        · simp at he
          obtain ⟨rfl, -⟩ := he
          exact .newObj _ x (at_none_of_child h1) (by simp [V.at, child_setKey_self, hd])
        · simp at he
          obtain ⟨rfl, -⟩ := he
          exact .newArr x (at_none_of_child h1) (by simp [V.at, child_setKey_self, hd])
      | t' :: m' =>
        have := ih (t' :: m') s r rfl
        cases this with
        | inObj k n kvs low n' kvs' low' h3 h4 => simp [V.at, fresh_child hf] at h3
        | inArr i xs ys h3 h4 h5 => simp [V.at, fresh_child hf] at h3
        | newObj k' x h3 h4 => exact .newObj _ x (at_none_of_child h1) (by simp only [V.at] at h4 ⊢; rw [child_setKey_self]; exact h4)
        | newArr x h3 h4 => exact .newArr x (at_none_of_child h1) (by simp only [V.at] at h4 ⊢; rw [child_setKey_self]; exact h4)
  | idxIn xs p z i d q qs d' l hz hi h1 h2 ih =>
    intro m s r h
    match m, h with
    | [], h => simp at h; obtain ⟨rfl, rfl⟩ := h; exact .inArr _ _ _ rfl rfl (Nat.le_of_lt (index_lt hi))
    | _ :: m, h => simp at h; obtain ⟨rfl, rfl⟩ := h; exact made_lift h1 (child_put_self h1) (ih m s r rfl)
  | idxNew xs p z d q qs d' l hz hi hf h2 ih =>
    intro m s r h
    have h1 : (V.arr xs).child (.idx xs.length) = none := by simp [child_idx]
    have h1' : (V.arr (xs ++ [d'])).child (.idx xs.length) = some d' := by simp [child_idx]
    match m, h with
    | [], h => simp at h; obtain ⟨rfl, rfl⟩ := h; exact .inArr _ _ _ rfl rfl (Nat.le_refl _)
    | t :: m, h =>
      simp at h
      obtain ⟨rfl, rfl⟩ := h
      match hm : m with
      | [] =>
        rcases setsTo_fresh hf h2 with ⟨k', x, m', he, hd⟩ | ⟨x, m', he, hd⟩
        · simp at he
          obtain ⟨rfl, -⟩ := he
          exact .newObj _ x (at_none_of_child h1) (by simp only [V.at]; rw [h1', hd])
        · simp at he
          obtain ⟨rfl, -⟩ := he
          exact .newArr x (at_none_of_child h1) (by simp only [V.at]; rw [h1', hd])
      | t' :: m' =>
        have := ih (t' :: m') s r rfl
        cases this with
        | inObj k n kvs low n' kvs' low' h3 h4 => simp [V.at, fresh_child hf] at h3
        | inArr i xs ys h3 h4 h5 => simp [V.at, fresh_child hf] at h3
        | newObj k' x h3 h4 => exact .newObj _ x (at_none_of_child h1) (by simp only [V.at] at h4 ⊢; rw [h1']; exact h4)
        | newArr x h3 h4 => exact .newArr x (at_none_of_child h1) (by simp only [V.at] at h4 ⊢; rw [h1']; exact h4)

/-! going down an existing path first -/

theorem setAt_pre (E : Env) (c : V) (hc : c.uninit = false) : ∀ (pre : List Param) (v a : V) (l : List Step) (p : Param) (ps : List Param),
    Plain pre → Addr v pre l → v.at l = some a →
    setAt E v c (pre ++ p :: ps) = (replace v l (setAt E a c (p :: ps)).1, do let m ← (setAt E a c (p :: ps)).2; pure (l ++ m)) := by
  intro pre
  induction pre with
  | nil => intro v a l p ps _ h; cases h
  | cons q qs ih =>
    intro v a l p ps hp h ha
    have hq : q.isSlice = false := hp q (by simp)
    have hp' : Plain qs := fun x hx => hp x (List.mem_cons_of_mem _ hx)
    obtain ⟨r, rs, hrs⟩ : ∃ r rs, qs ++ p :: ps = r :: rs := by cases qs <;> simp
    rw [List.cons_append, hrs]
    cases h with
    | slice => simp [Param.isSlice] at hq
    | key n kvs low k d h1 =>
      simp only [List.nil_append, List.cons.injEq] at hrs
      obtain ⟨rfl, rfl⟩ := hrs
      rw [setAt_cons _ _ _ _ _ _ rfl rfl hc]
      simp only [V.at, h1] at ha
      simp at ha; subst ha
      simp [h1, replace]
    | idx xs _ z i hz hi =>
      simp only [List.nil_append, List.cons.injEq] at hrs
      obtain ⟨rfl, rfl⟩ := hrs
      rw [setAt_cons _ _ _ _ _ _ hq rfl hc]
      simp only [V.at] at ha
      match hd : (V.arr xs).child (.idx i), ha with
      | some d, ha => simp at ha; subst ha; simp [hz, hi, hd, replace]
      | none, ha => simp at ha
    | keyCons n kvs low k d x xs l h1 h =>
      rw [setAt_cons _ _ _ _ _ _ rfl rfl hc]
      simp only [V.at, h1] at ha
      simp only [h1, ← hrs, ih d a l p ps hp' h ha, replace]
      cases (setAt E a c (p :: ps)).2 <;> simp
    | idxCons xs _ z i d y ys l hz hi h1 h =>
      rw [setAt_cons _ _ _ _ _ _ hq rfl hc]
      simp only [V.at, h1] at ha
      simp only [hz, hi, h1, ← hrs, ih d a l p ps hp' h ha, replace]
      cases (setAt E a c (p :: ps)).2 <;> simp

theorem int_not_slice {p : Param} {z : Int} (h : intOf p = some z) : p.isSlice = false := by
  cases p <;> simp [intOf, Param.isSlice] at h ⊢

/-- a slice can only be the last parameter -/
theorem addr_slice_last {v : V} {ps : List Param} {l : List Step} (h : Addr v ps l) : ∀ pre p q qs, ps = pre ++ p :: q :: qs → p.isSlice = false := by
  induction h with
  | slice v q qs l _ ih => intro pre p q' qs' h; cases pre <;> simp at h
  | key n kvs low k c h => intro pre p q' qs' h; cases pre <;> simp at h
  | idx xs p z i h1 h2 => intro pre p q' qs' h; cases pre <;> simp at h
  | keyCons n kvs low k c q qs l h1 _ ih =>
    intro pre p q' qs' h
    match pre, h with
    | [], h => simp at h; rw [← h.1]; rfl
    | _ :: pre, h => simp at h; exact ih pre p q' qs' h.2
  | idxCons xs p z i c q qs l hz h2 h3 _ ih =>
    intro pre p q' qs' h
    match pre, h with
    | [], h => simp at h; rw [← h.1]; exact int_not_slice hz
    | _ :: pre, h => simp at h; exact ih pre _ q' qs' h.2

theorem setsTo_slice_last {E : Env} {c v v' : V} {ps : List Param} {l : List Step} (h : SetsTo E c v ps v' l) :
    ∀ pre p q qs, ps = pre ++ p :: q :: qs → p.isSlice = false := by
  induction h with
  | slice v q qs v' l _ ih => intro pre p q' qs' h; cases pre <;> simp at h
  | key => intro pre p q' qs' h; cases pre <;> simp at h
  | idx => intro pre p q' qs' h; cases pre <;> simp at h
  | idxEnd => intro pre p q' qs' h; cases pre <;> simp at h
  | keyIn n kvs low k d q qs d' l h1 h2 ih =>
    intro pre p q' qs' h
    match pre, h with
    | [], h => simp at h; rw [← h.1]; rfl
    | _ :: pre, h => simp at h; exact ih pre p q' qs' h.2
  | keyNew n kvs low k d q qs d' l h1 hf h2 ih =>
    intro pre p q' qs' h
    match pre, h with
    | [], h => simp at h; rw [← h.1]; rfl
    | _ :: pre, h => simp at h; exact ih pre p q' qs' h.2
  | idxIn xs p z i d q qs d' l hz hi h1 h2 ih =>
    intro pre p q' qs' h
    match pre, h with
    | [], h => simp at h; rw [← h.1]; exact int_not_slice hz
    | _ :: pre, h => simp at h; exact ih pre _ q' qs' h.2
  | idxNew xs p z d q qs d' l hz hi hf h2 ih =>
    intro pre p q' qs' h
    match pre, h with
    | [], h => simp at h; rw [← h.1]; exact int_not_slice hz
    | _ :: pre, h => simp at h; exact ih pre _ q' qs' h.2

end JV
