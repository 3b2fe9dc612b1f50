import Verif.Model.Modify
import Verif.Proofs.Get
/-!
What `Set(c).At(ps...)` does, as a relation, and that the model computes exactly that.
-/
namespace JV
open Spec

theorem uninit_obj (n kvs low) : (V.obj n kvs low).uninit = false := rfl
theorem uninit_arr (xs) : (V.arr xs).uninit = false := rfl

theorem child_some_cases {v d : V} {s : Step} (h : v.child s = some d) :
    (∃ n kvs low k e, v = .obj n kvs low ∧ s = .key k ∧ lookup k kvs = some e ∧ e.v = d) ∨
    (∃ xs i, v = .arr xs ∧ s = .idx i ∧ xs[i]? = some d) := by
  match v, s, h with
  | .obj n kvs low, .key k, h =>
    simp only [child_key, Option.map_eq_some_iff] at h
    obtain ⟨e, h1, h2⟩ := h
    exact .inl ⟨n, kvs, low, k, e, rfl, rfl, h1, h2⟩
  | .arr xs, .idx i, h => exact .inr ⟨xs, i, rfl, rfl, h⟩

theorem child_put_self {v d d' : V} {s : Step} (h : v.child s = some d) : (v.put s d').child s = some d' := by
  rcases child_some_cases h with ⟨n, kvs, low, k, e, rfl, rfl, h1, h2⟩ | ⟨xs, i, rfl, rfl, h1⟩
  · simp [V.put, child_key, lookup_putKey, h1]
  · have : i < xs.length := by
      rw [List.getElem?_eq_some_iff] at h1; exact h1.1
    simp [V.put, child_idx, this]

theorem child_put_ne {v d' : V} {s t : Step} (h : s ≠ t) : (v.put s d').child t = v.child t := by
  match v, s, t with
  | .obj n kvs low, .key k, .key k' =>
    have : k ≠ k' := fun h' => h (by rw [h'])
    simp [V.put, child_key, lookup_putKey, this]
  | .obj n kvs low, .key k, .idx i => rfl
  | .obj n kvs low, .idx i, t => rfl
  | .arr xs, .idx i, .idx j =>
    have : i ≠ j := fun h' => h (by rw [h'])
    simp [V.put, child_idx, this]
  | .arr xs, .idx i, .key k => rfl
  | .arr xs, .key k, t => rfl
  | .nilp, _, _ => rfl
  | .notExist, _, _ => rfl
  | .str _, _, _ => rfl
  | .num _ _, _, _ => rfl
  | .bool _, _, _ => rfl
  | .null, _, _ => rfl

theorem child_setKey_self (E : Env) (n kvs low k c) : (setKey E n kvs low k c).child (.key k) = some c := by
  simp [setKey, child_key, lookup_assign]

theorem child_setKey_ne (E : Env) (n kvs low k c t) (h : .key k ≠ t) : (setKey E n kvs low k c).child t = (V.obj n kvs low).child t := by
  match t with
  | .key k' =>
    have : k ≠ k' := fun h' => h (by rw [h'])
    simp [setKey, child_key, lookup_assign, this]
  | .idx i => rfl

theorem index_end (n : Nat) : index (n + 1) n = some n := by
  unfold index; rw [if_pos (by omega)]; simp

/-- the container that Set creates when the next parameter is `p` -/
def freshFor : Param → Option V
  | .str _ => some newObject
  | p => if intOf p = some 0 then some newArray else none

theorem newContainer_eq (p : Param) : newContainer p = match freshFor p with
    | some d => .ok d
    | none => if (intOf p).isSome then .err .outOfRange else .err .other := by
  cases p <;> simp [newContainer, freshFor, anyToString, anyToInt, intOf] <;> split <;> simp_all

/-- the empty object, as `NewObject` -/
theorem freshFor_not_uninit {p d} (h : freshFor p = some d) : d = newObject ∨ d = newArray := by
  cases p <;> simp [freshFor, intOf] at h
  all_goals first | (left; exact h.symm) | (right; exact h.2.symm)

/-- `SetsTo E c v ps v' l`: setting `c` at `ps` in `v` gives `v'`, with `c` at location `l`. -/
inductive SetsTo (E : Env) (c : V) : V → List Param → V → List Step → Prop
  | slice (v q qs v' l) : SetsTo E c v (q :: qs) v' l → SetsTo E c v [.slice (q :: qs)] v' l
  | key (n kvs low k) : c.uninit = false → SetsTo E c (.obj n kvs low) [.str k] (setKey E n kvs low k c) [.key k]
  | idx (xs p z i) : c.uninit = false → intOf p = some z → index (List.length xs) z = some i →
      SetsTo E c (.arr xs) [p] (.arr (xs.set i c)) [.idx i]
  | idxEnd (xs p) : c.uninit = false → intOf p = some (List.length xs : Int) → SetsTo E c (.arr xs) [p] (.arr (xs ++ [c])) [.idx xs.length]
  | keyIn (n kvs low k d q qs d' l) : (V.obj n kvs low).child (.key k) = some d → SetsTo E c d (q :: qs) d' l →
      SetsTo E c (.obj n kvs low) (.str k :: q :: qs) ((V.obj n kvs low).put (.key k) d') (.key k :: l)
  | keyNew (n kvs low k d q qs d' l) : (V.obj n kvs low).child (.key k) = none → freshFor q = some d → SetsTo E c d (q :: qs) d' l →
      SetsTo E c (.obj n kvs low) (.str k :: q :: qs) (setKey E n kvs low k d') (.key k :: l)
  | idxIn (xs p z i d q qs d' l) : intOf p = some z → index (List.length xs) z = some i → (V.arr xs).child (.idx i) = some d →
      SetsTo E c d (q :: qs) d' l → SetsTo E c (.arr xs) (p :: q :: qs) ((V.arr xs).put (.idx i) d') (.idx i :: l)
  | idxNew (xs p z d q qs d' l) : intOf p = some z → index (List.length xs) z = none → freshFor q = some d →
      SetsTo E c d (q :: qs) d' l → SetsTo E c (.arr xs) (p :: q :: qs) (.arr (xs ++ [d'])) (.idx xs.length :: l)

theorem setAtIndex_eq {α : Type} (xs : List α) (c : α) (z : Int) : setAtIndex xs c z =
    if z = xs.length then .ok (xs ++ [c], xs.length) else match index xs.length z with
    | some i => .ok (xs.set i c, i)
    | none => .err .outOfRange := by
  unfold setAtIndex
  split
  · rfl
  · simp only [posForRead_eq]
    match hi : index xs.length z with
    | none => simp
    | some i => have := index_lt hi; simp [this, show ¬ ((i : Int) < 0) by omega]

theorem index_len (n : Nat) : index n n = none := by
  unfold index; rw [if_neg (by omega), if_neg (by omega)]

theorem atLast_ok {E : Env} {v c v' : V} {p : Param} {l : List Step} (hc : c.uninit = false) :
    atLastParam E v c p = (v', .ok l) ↔ (p.isSlice = false ∧ SetsTo E c v [p] v' l) := by
  constructor
  · intro h
    match v, h with
    | .obj n kvs low, h =>
      unfold atLastParam at h
      cases p <;> simp [anyToString] at h
      obtain ⟨rfl, rfl⟩ := h
      exact ⟨rfl, .key _ _ _ _ hc⟩
    | .arr xs, h =>
      unfold atLastParam at h
      rw [anyToInt_eq] at h
      match hz : intOf p, h with
      | none, h => simp at h
      | some z, h =>
        have hp : p.isSlice = false := by cases p <;> simp [intOf, Param.isSlice] at hz ⊢
        simp only [setAtIndex_eq] at h
        by_cases hl : z = xs.length
        · rw [if_pos hl] at h
          simp at h
          obtain ⟨rfl, rfl⟩ := h
          exact ⟨hp, .idxEnd _ _ hc (by rw [hz, hl])⟩
        · rw [if_neg hl] at h
          match hi : index xs.length z, h with
          | none, h => simp at h
          | some i, h => simp at h; obtain ⟨rfl, rfl⟩ := h; exact ⟨hp, .idx _ _ _ _ hc hz hi⟩
    | .nilp, h => simp [atLastParam] at h
    | .notExist, h => simp [atLastParam] at h
    | .str _, h => simp [atLastParam] at h
    | .num _ _, h => simp [atLastParam] at h
    | .bool _, h => simp [atLastParam] at h
    | .null, h => simp [atLastParam] at h
  · rintro ⟨hp, h⟩
    cases h with
    | slice v q qs v' l h => simp [Param.isSlice] at hp
    | key => simp [atLastParam, anyToString]
    | idx xs p z i hc hz hi =>
      simp only [atLastParam]
      rw [anyToInt_eq, hz]
      simp only [setAtIndex_eq]
      have : z ≠ xs.length := by intro h; subst h; rw [index_len] at hi; cases hi
      simp [this, hi]
    | idxEnd xs p hc hz =>
      simp only [atLastParam]
      rw [anyToInt_eq, hz]
      simp [setAtIndex_eq]

theorem setAt_one (E : Env) (v c : V) (p : Param) : setAt E v c [p] = setAt1 E v c p := by unfold setAt; rfl

theorem setAt1_slice (E : Env) (v c : V) (q : Param) (qs : List Param) : setAt1 E v c (.slice (q :: qs)) = setAt E v c (q :: qs) := by
  unfold setAt1; exact if_neg (by simp)

theorem setAt1_plain (E : Env) (v c : V) (p : Param) (h : p.isSlice = false) :
    setAt1 E v c p = if v.uninit || c.uninit then (v, .err .valueUninitialized) else atLastParam E v c p := by
  cases p with
  | slice _ => simp [Param.isSlice] at h
  | _ => rfl

theorem setAt1_empty (E : Env) (v c : V) : setAt1 E v c (.slice []) =
    if v.uninit || c.uninit then (v, .err .valueUninitialized) else atLastParam E v c .nil := by
  unfold setAt1; rfl

theorem setsTo_not_uninit {E : Env} {c v v' : V} {ps : List Param} {l : List Step} (h : SetsTo E c v ps v' l) :
    v.uninit = false ∧ c.uninit = false := by
  induction h <;> simp_all [V.uninit]

theorem atLast_err {E : Env} {v c : V} {p : Param} (h : ∀ l, (atLastParam E v c p).2 ≠ .ok l) : (atLastParam E v c p).1 = v := by
  match v, h with
  | .obj n kvs low, h =>
    unfold atLastParam at h ⊢
    cases p <;> simp [anyToString] at h ⊢
  | .arr xs, h =>
    unfold atLastParam at h ⊢
    cases hz : anyToInt p with
    | ok z =>
      simp only [hz] at h ⊢
      cases hs : setAtIndex xs c z with
      | ok r => simp [hs] at h
      | _ => simp
    | _ => simp
  | .nilp, h => rfl
  | .notExist, h => rfl
  | .str _, h => rfl
  | .num _ _, h => rfl
  | .bool _, h => rfl
  | .null, h => rfl

/-! rewriting `setAt` on a path of two or more parameters -/

theorem setAt_cons (E : Env) (v c : V) (p q : Param) (qs : List Param) (hp : p.isSlice = false) (hv : v.uninit = false) (hc : c.uninit = false) :
    setAt E v c (p :: q :: qs) = match v with
      | .obj n kvs low =>
        match p with
        | .str k =>
          match (V.obj n kvs low).child (.key k) with
          | some d => ((V.obj n kvs low).put (.key k) (setAt E d c (q :: qs)).1, do let l ← (setAt E d c (q :: qs)).2; pure (.key k :: l))
          | none => match freshFor q with
            | some d => match (setAt E d c (q :: qs)).2 with
              | .ok l => (setKey E n kvs low k (setAt E d c (q :: qs)).1, .ok (.key k :: l))
              | .err e => (v, .err e)
              | .panic => (v, .panic)
              | .diverge => (v, .diverge)
            | none => (v, if (intOf q).isSome then .err .outOfRange else .err .other)
        | _ => (v, .err .parameterError)
      | .arr xs =>
        match intOf p with
        | none => (v, .err (intErr p))
        | some z =>
          match index xs.length z with
          | some i => match (V.arr xs).child (.idx i) with
            | some d => ((V.arr xs).put (.idx i) (setAt E d c (q :: qs)).1, do let l ← (setAt E d c (q :: qs)).2; pure (.idx i :: l))
            | none => (v, .panic)
          | none => match freshFor q with
            | some d => match (setAt E d c (q :: qs)).2 with
              | .ok l => (.arr (xs ++ [(setAt E d c (q :: qs)).1]), .ok (.idx xs.length :: l))
              | .err e => (v, .err e)
              | .panic => (v, .panic)
              | .diverge => (v, .diverge)
            | none => (v, if (intOf q).isSome then .err .outOfRange else .err .other)
      | _ => (v, .err .other) := by
  conv => lhs; unfold setAt
  simp only [hp, hv, hc, Bool.false_eq_true, if_false, Bool.or_self]
  match v with
  | .obj n kvs low =>
    cases p <;> simp only [anyToString, child_key]
    rename_i k
    cases lookup k kvs with
    | some e => simp
    | none =>
      simp only [newContainer_eq, Option.map_none]
      cases freshFor q with
      | some d => rfl
      | none => cases (intOf q).isSome <;> rfl
  | .arr xs =>
    simp only [anyToInt_eq]
    cases hz : intOf p with
    | none => rfl
    | some z =>
      simp only [posForRead_eq]
      cases hi : index xs.length z with
      | some i =>
        simp only [show ¬ ((i : Int) < 0) by omega, if_false, Int.toNat_natCast, child_idx]
        rfl
      | none =>
        simp only [newContainer_eq]
        cases freshFor q with
        | some d => rfl
        | none => cases (intOf q).isSome <;> rfl
  | .nilp => rfl
  | .notExist => rfl
  | .str _ => rfl
  | .num _ _ => rfl
  | .bool _ => rfl
  | .null => rfl

theorem setAt_cons_slice (E : Env) (v c : V) (p q : Param) (qs : List Param) (hp : p.isSlice = true) :
    setAt E v c (p :: q :: qs) = (v, .err .multipleParam) := by
  conv => lhs; unfold setAt
  simp [hp]

theorem setAt_cons_uninit (E : Env) (v c : V) (p q : Param) (qs : List Param) (hp : p.isSlice = false) (h : (v.uninit || c.uninit) = true) :
    setAt E v c (p :: q :: qs) = (v, .err .valueUninitialized) := by
  conv => lhs; unfold setAt
  simp only [hp, Bool.false_eq_true, if_false]
  rw [if_pos h]

/-- The relation is what the model computes. -/
theorem setsTo_setAt {E : Env} {c v v' : V} {ps : List Param} {l : List Step} (h : SetsTo E c v ps v' l) : setAt E v c ps = (v', .ok l) := by
  induction h with
  | slice v q qs v' l h ih => rw [setAt_one, setAt1_slice, ih]
  | key n kvs low k hc =>
    rw [setAt_one, setAt1_plain _ _ _ _ rfl, if_neg (by simp [uninit_obj, hc])]
    exact (atLast_ok hc).2 ⟨rfl, .key _ _ _ _ hc⟩
  | idx xs p z i hc hz hi =>
    have hp : p.isSlice = false := by cases p <;> simp [intOf, Param.isSlice] at hz ⊢
    rw [setAt_one, setAt1_plain _ _ _ _ hp, if_neg (by simp [uninit_arr, hc])]
    exact (atLast_ok hc).2 ⟨hp, .idx _ _ _ _ hc hz hi⟩
  | idxEnd xs p hc hz =>
    have hp : p.isSlice = false := by cases p <;> simp [intOf, Param.isSlice] at hz ⊢
    rw [setAt_one, setAt1_plain _ _ _ _ hp, if_neg (by simp [uninit_arr, hc])]
    exact (atLast_ok hc).2 ⟨hp, .idxEnd _ _ hc hz⟩
  | keyIn n kvs low k d q qs d' l h1 h2 ih =>
    rw [setAt_cons _ _ _ _ _ _ rfl rfl (setsTo_not_uninit h2).2]
    simp [h1, ih]
  | keyNew n kvs low k d q qs d' l h1 hf h2 ih =>
    rw [setAt_cons _ _ _ _ _ _ rfl rfl (setsTo_not_uninit h2).2]
    simp [h1, hf, ih]
  | idxIn xs p z i d q qs d' l hz hi h1 h2 ih =>
    have hp : p.isSlice = false := by cases p <;> simp [intOf, Param.isSlice] at hz ⊢
    rw [setAt_cons _ _ _ _ _ _ hp rfl (setsTo_not_uninit h2).2]
    simp [hz, hi, h1, ih]
  | idxNew xs p z d q qs d' l hz hi hf h2 ih =>
    have hp : p.isSlice = false := by cases p <;> simp [intOf, Param.isSlice] at hz ⊢
    rw [setAt_cons _ _ _ _ _ _ hp rfl (setsTo_not_uninit h2).2]
    simp [hz, hi, hf, ih]

/-- One statement for success and failure: success is the relation; otherwise nothing changes and there is an error, not a panic. -/
def SetSpec (E : Env) (v c : V) (ps : List Param) (r : V × R (List Step)) : Prop :=
  (∃ l, r.2 = .ok l ∧ SetsTo E c v ps r.1 l) ∨ (∃ e, r = (v, .err e))

theorem atLast_spec (E : Env) (v c : V) (p : Param) (hc : c.uninit = false) (hp : p.isSlice = false) :
    SetSpec E v c [p] (atLastParam E v c p) := by
  match h : (atLastParam E v c p).2 with
  | .ok l =>
    left
    refine ⟨l, h, ((atLast_ok hc).1 ?_).2⟩
    rw [← h]
  | .err e => right; exact ⟨e, Prod.ext (atLast_err (by intro l; rw [h]; simp)) h⟩
  | .panic =>
    exfalso
    match v, h with
    | .obj n kvs low, h => cases p <;> simp [atLastParam, anyToString] at h
    | .arr xs, h =>
      simp only [atLastParam] at h
      rw [anyToInt_eq] at h
      cases hz : intOf p with
      | none => simp [hz] at h
      | some z =>
        simp only [hz, setAtIndex_eq] at h
        by_cases hl : z = xs.length
        · simp [hl] at h
        · simp only [hl, if_false] at h
          cases hi : index xs.length z <;> simp [hi] at h
    | .nilp, h => simp [atLastParam] at h
    | .notExist, h => simp [atLastParam] at h
    | .str _, h => simp [atLastParam] at h
    | .num _ _, h => simp [atLastParam] at h
    | .bool _, h => simp [atLastParam] at h
    | .null, h => simp [atLastParam] at h
  | .diverge =>
    exfalso
    match v, h with
    | .obj n kvs low, h => cases p <;> simp [atLastParam, anyToString] at h
    | .arr xs, h =>
      simp only [atLastParam] at h
      rw [anyToInt_eq] at h
      cases hz : intOf p with
      | none => simp [hz] at h
      | some z =>
        simp only [hz, setAtIndex_eq] at h
        by_cases hl : z = xs.length
        · simp [hl] at h
        · simp only [hl, if_false] at h
          cases hi : index xs.length z <;> simp [hi] at h
    | .nilp, h => simp [atLastParam] at h
    | .notExist, h => simp [atLastParam] at h
    | .str _, h => simp [atLastParam] at h
    | .num _ _, h => simp [atLastParam] at h
    | .bool _, h => simp [atLastParam] at h
    | .null, h => simp [atLastParam] at h

theorem atLast_nil_err (E : Env) (v c : V) : ∃ e, atLastParam E v c .nil = (v, .err e) := by
  cases v <;> simp [atLastParam, anyToString, anyToInt]

theorem setAt1_spec_plain (E : Env) (c v : V) (p : Param) (hp : p.isSlice = false) : SetSpec E v c [p] (setAt1 E v c p) := by
  rw [setAt1_plain _ _ _ _ hp]
  by_cases hu : (v.uninit || c.uninit) = true
  · rw [if_pos hu]; exact .inr ⟨_, rfl⟩
  · rw [if_neg hu]
    simp at hu
    exact atLast_spec E v c p hu.2 hp

mutual
theorem setAt1_spec (E : Env) (c : V) : ∀ (p : Param) (v : V), SetSpec E v c [p] (setAt1 E v c p)
  | .slice qs, v => by
    match qs with
    | [] =>
      right
      rw [setAt1_empty]
      by_cases hu : (v.uninit || c.uninit) = true
      · rw [if_pos hu]; exact ⟨_, rfl⟩
      · rw [if_neg hu]; exact atLast_nil_err E v c
    | q :: qs =>
      rw [setAt1_slice]
      rcases setAt_spec E c (q :: qs) v with h | ⟨l, h1, h2⟩ | h
      · simp at h
      · exact .inl ⟨l, h1, .slice _ _ _ _ _ h2⟩
      · exact .inr h
  | .nil, v => setAt1_spec_plain E c v .nil rfl
  | .int i, v => setAt1_spec_plain E c v (.int i) rfl
  | .uint i, v => setAt1_spec_plain E c v (.uint i) rfl
  | .str k, v => setAt1_spec_plain E c v (.str k) rfl
  | .other, v => setAt1_spec_plain E c v .other rfl
termination_by structural p => p
theorem setAt_spec (E : Env) (c : V) : ∀ (ps : List Param) (v : V), ps = [] ∨ SetSpec E v c ps (setAt E v c ps)
  | [], v => .inl rfl
  | p :: rest, v => by
    right
    match rest with
    | [] => rw [setAt_one]; exact setAt1_spec E c p v
    | q :: qs =>
      have ih : ∀ d, SetSpec E d c (q :: qs) (setAt E d c (q :: qs)) := fun d => by
        rcases setAt_spec E c (q :: qs) d with h | h
        · simp at h
        · exact h
      by_cases hp : p.isSlice = true
      · rw [setAt_cons_slice _ _ _ _ _ _ hp]; exact .inr ⟨_, rfl⟩
      · have hp : p.isSlice = false := by simpa using hp
        by_cases hu : (v.uninit || c.uninit) = true
        · rw [setAt_cons_uninit _ _ _ _ _ _ hp hu]; exact .inr ⟨_, rfl⟩
        · simp only [Bool.or_eq_true, not_or, Bool.not_eq_true] at hu
          rw [setAt_cons _ _ _ _ _ _ hp hu.1 hu.2]
          match v with
          | .obj n kvs low =>
            match p with
            | .str k =>
              simp only
              match hl : (V.obj n kvs low).child (.key k) with
              | some d =>
                rcases ih d with ⟨l, h1, h2⟩ | ⟨e, h⟩
                · left; exact ⟨.key k :: l, by simp [h1], .keyIn _ _ _ _ _ _ _ _ _ hl h2⟩
                · right; exact ⟨e, by simp [h, put_child hl]⟩
              | none =>
                match hf : freshFor q with
                | some d =>
                  rcases ih d with ⟨l, h1, h2⟩ | ⟨e, h⟩
                  · left; exact ⟨.key k :: l, by simp [h1], by simp only [h1]; exact .keyNew _ _ _ _ _ _ _ _ _ hl hf h2⟩
                  · right; exact ⟨e, by simp [h]⟩
                | none => right; cases (intOf q).isSome <;> exact ⟨_, rfl⟩
            | .nil => exact .inr ⟨_, rfl⟩
            | .int _ => exact .inr ⟨_, rfl⟩
            | .uint _ => exact .inr ⟨_, rfl⟩
            | .slice _ => exact .inr ⟨_, rfl⟩
            | .other => exact .inr ⟨_, rfl⟩
          | .arr xs =>
            simp only
            match hz : intOf p with
            | none => exact .inr ⟨_, rfl⟩
            | some z =>
              simp only
              match hi : index xs.length z with
              | some i =>
                simp only
                match hl : (V.arr xs).child (.idx i) with
                | some d =>
                  rcases ih d with ⟨l, h1, h2⟩ | ⟨e, h⟩
                  · left; exact ⟨.idx i :: l, by simp [h1], .idxIn _ _ _ _ _ _ _ _ _ hz hi hl h2⟩
                  · right; exact ⟨e, by simp [h, put_child hl]⟩
                | none =>
                  exfalso
                  rw [child_idx, List.getElem?_eq_getElem (index_lt hi)] at hl
                  cases hl
              | none =>
                simp only
                match hf : freshFor q with
                | some d =>
                  rcases ih d with ⟨l, h1, h2⟩ | ⟨e, h⟩
                  · left; exact ⟨.idx xs.length :: l, by simp [h1], by simp only [h1]; exact .idxNew _ _ _ _ _ _ _ _ hz hi hf h2⟩
                  · right; exact ⟨e, by simp [h]⟩
                | none => right; cases (intOf q).isSome <;> exact ⟨_, rfl⟩
          | .nilp => exact .inr ⟨_, rfl⟩
          | .notExist => exact .inr ⟨_, rfl⟩
          | .str _ => exact .inr ⟨_, rfl⟩
          | .num _ _ => exact .inr ⟨_, rfl⟩
          | .bool _ => exact .inr ⟨_, rfl⟩
          | .null => exact .inr ⟨_, rfl⟩
termination_by structural ps => ps
end

/-- the child is where the location says -/
theorem setsTo_at {E : Env} {c v v' : V} {ps : List Param} {l : List Step} (h : SetsTo E c v ps v' l) : v'.at l = some c := by
  induction h with
  | slice v q qs v' l h ih => exact ih
  | key n kvs low k hc => simp [V.at, child_setKey_self]
  | idx xs p z i hc hz hi => simp [V.at, child_idx, index_lt hi]
  | idxEnd xs p hc hz => simp [V.at, child_idx]
  | keyIn n kvs low k d q qs d' l h1 h2 ih => simp [V.at, child_put_self h1, ih]
  | keyNew n kvs low k d q qs d' l h1 hf h2 ih => simp [V.at, child_setKey_self, ih]
  | idxIn xs p z i d q qs d' l hz hi h1 h2 ih => simp [V.at, child_put_self h1, ih]
  | idxNew xs p z d q qs d' l hz hi hf h2 ih => simp [V.at, child_idx, ih]

theorem fresh_child {q : Param} {d : V} (h : freshFor q = some d) (s : Step) : d.child s = none := by
  rcases freshFor_not_uninit h with rfl | rfl
  · cases s <;> rfl
  · cases s <;> simp [newArray, V.child]

theorem child_append_ne (xs : List V) (d : V) (t : Step) (h : .idx xs.length ≠ t) : (V.arr (xs ++ [d])).child t = (V.arr xs).child t := by
  match t with
  | .key k => rfl
  | .idx i =>
    have hi : i ≠ xs.length := fun h' => h (by rw [h'])
    simp only [child_idx]
    rcases Nat.lt_or_gt_of_ne hi with h | h
    · rw [List.getElem?_append_left h]
    · rw [List.getElem?_eq_none (by simp; omega), List.getElem?_eq_none (by omega)]

/-- nothing off the path changes -/
theorem setsTo_frame {E : Env} {c v v' : V} {ps : List Param} {l : List Step} (h : SetsTo E c v ps v' l) :
    ∀ m, Parts l m → v'.at m = v.at m := by
  induction h with
  | slice v q qs v' l h ih => exact ih
  | key n kvs low k hc =>
    intro m hm
    cases hm with
    | here s t l m hne => simp only [V.at]; rw [child_setKey_ne _ _ _ _ _ _ _ hne]
    | there s l m h => cases h
  | idx xs p z i hc hz hi =>
    intro m hm
    cases hm with
    | here s t l m hne => simp only [V.at]; rw [show (V.arr (xs.set i c)) = (V.arr xs).put (.idx i) c from rfl, child_put_ne hne]
    | there s l m h => cases h
  | idxEnd xs p hc hz =>
    intro m hm
    cases hm with
    | here s t l m hne => simp only [V.at]; rw [child_append_ne _ _ _ hne]
    | there s l m h => cases h
  | keyIn n kvs low k d q qs d' l h1 h2 ih =>
    intro m hm
    cases hm with
    | here s t l m hne => simp only [V.at]; rw [child_put_ne hne]
    | there s l m h => simp only [V.at]; rw [child_put_self h1, h1]; exact ih m h
  | keyNew n kvs low k d q qs d' l h1 hf h2 ih =>
    intro m hm
    cases hm with
    | here s t l m hne => simp only [V.at]; rw [child_setKey_ne _ _ _ _ _ _ _ hne]
    | there s l m h =>
      simp only [V.at]; rw [child_setKey_self, h1]
      simp only
      rw [ih m h]
      cases h <;> simp [V.at, fresh_child hf]
  | idxIn xs p z i d q qs d' l hz hi h1 h2 ih =>
    intro m hm
    cases hm with
    | here s t l m hne => simp only [V.at]; rw [child_put_ne hne]
    | there s l m h => simp only [V.at]; rw [child_put_self h1, h1]; exact ih m h
  | idxNew xs p z d q qs d' l hz hi hf h2 ih =>
    intro m hm
    cases hm with
    | here s t l m hne => simp only [V.at]; rw [child_append_ne _ _ _ hne]
    | there s l m h =>
      simp only [V.at]; simp only [child_idx]
      rw [List.getElem?_eq_none (Nat.le_refl _)]
      simp only [List.getElem?_append_right (Nat.le_refl _), Nat.sub_self, List.getElem?_cons_zero]
      rw [ih m h]
      cases h <;> simp [V.at, fresh_child hf]

theorem set_spec (E : Env) (v : V) (ch : Ch) (ps : List Param) (hps : ps ≠ []) :
    (∃ l, (set E v ch ps).2 = .ok l ∧ ch.err = none ∧ SetsTo E ch.c v ps (set E v ch ps).1 l) ∨ (∃ e, set E v ch ps = (v, .err e)) := by
  unfold set
  cases hc : ch.err with
  | some e => exact .inr ⟨e, rfl⟩
  | none =>
    rcases setAt_spec E ch.c ps v with h | ⟨l, h1, h2⟩ | h
    · exact absurd h hps
    · exact .inl ⟨l, h1, rfl, h2⟩
    · exact .inr h

end JV
