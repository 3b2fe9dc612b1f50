import Verif.Proofs.SetMore
import Verif.Props.Parsing
/-!
C19-C25, C28, C29: reading and changing a value by path.
`set E v ch ps`, `insert`, `append` give the tree afterwards and the location of the stored child; `get E v ps` the value found.
-/
namespace JV
open Spec

/-- a small document for the examples: `{"a":[1,{"b":null}],"c":true}` (number records left at zero) -/
def sampleNum (t : String) : V := .num (asc t) { negative := false, floated := false, i64 := 1, u64 := 1, f64 := 0 }
def sampleDoc : V :=
  .obj 2 [⟨asc "a", 1, .arr [sampleNum "1", .obj 1 [⟨asc "b", 1, .null⟩] none]⟩, ⟨asc "c", 2, .bool true⟩] none

/-! ### C19 -/

/-- C19 as stated. It is false: see `C19_counterexample`. -/
def C19_statement : Prop := ∀ (E : Env) (v v' : V) (ch : Ch) (ps : List Param) (l : List Step),
  set E v ch ps = (v', .ok l) → get E v' ps = .ok ch.c

/-- A value that was Set can be Got at the same path, provided no index before the last parameter skips over the end of an existing
array (`Skips`). All values, children and paths. -/
theorem C19_set_get_partial (E : Env) (v v' : V) (ch : Ch) (ps : List Param) (l : List Step)
    (h : set E v ch ps = (v', .ok l)) (hs : ¬ Skips v ps) : get E v' ps = .ok ch.c := by
  by_cases hne : ps = []
  · subst hne; unfold set at h; cases hc : ch.err <;> simp [hc, setAt] at h
  · rcases set_spec E v ch ps hne with ⟨m, h1, -, h2⟩ | ⟨e, h1⟩
    · rw [h] at h1 h2; cases h1
      exact (get_iff E v' ps ch.c).2 ⟨l, setsTo_addr h2 hs, setsTo_at h2⟩
    · rw [h] at h1; cases h1

/-- Set returns the child itself: the location it reports holds it. No side condition. -/
theorem C19_returns_child (E : Env) (v v' : V) (ch : Ch) (ps : List Param) (l : List Step)
    (h : set E v ch ps = (v', .ok l)) : v'.at l = some ch.c ∧ ch.err = none := by
  by_cases hne : ps = []
  · subst hne; unfold set at h; cases hc : ch.err <;> simp [hc, setAt] at h
  · rcases set_spec E v ch ps hne with ⟨m, h1, h3, h2⟩ | ⟨e, h1⟩
    · rw [h] at h1 h2; cases h1
      exact ⟨setsTo_at h2, h3⟩
    · rw [h] at h1; cases h1

/-- `Set(true).At(5, "a")` on an empty array succeeds, and Get(5, "a") then fails: a skipping index appends instead. -/
theorem C19_counterexample : ¬ C19_statement := by
  intro h
  have := h sampleEnv (.arr []) (.arr [.obj 1 [⟨asc "a", 1, .bool true⟩] none]) { c := .bool true } [.int 5, .str (asc "a")] [.idx 0, .key (asc "a")]
    (by decide +kernel)
  exact absurd this (by decide +kernel)

-- two levels, creating an array inside an object
example : set sampleEnv sampleDoc { c := .null } [.str (asc "x"), .int 0, .str (asc "y")] =
    (.obj 3 [⟨asc "a", 1, .arr [sampleNum "1", .obj 1 [⟨asc "b", 1, .null⟩] none]⟩, ⟨asc "c", 2, .bool true⟩,
      ⟨asc "x", 3, .arr [.obj 1 [⟨asc "y", 1, .null⟩] none]⟩] none, .ok [.key (asc "x"), .idx 0, .key (asc "y")]) := by decide +kernel
example : ¬ Skips sampleDoc [.str (asc "x"), .int 0, .str (asc "y")] := by
  intro h
  cases h with
  | key n kvs low k c q qs h1 h2 =>
    rw [show (V.obj _ _ _).child (.key (asc "x")) = none by decide +kernel] at h1
    cases h1

/-! ### C20 -/

/-- C20 as stated, for paths of keys and indexes counted from the beginning. False because of skipping indexes. -/
def C20_statement : Prop := ∀ (E : Env) (v v' : V) (ch : Ch) (p l : List Step), Small p → set E v ch (pathOf p) = (v', .ok l) →
  ∀ q, Small q → Parts p q → ∀ c, get E v' (pathOf q) = .ok c ↔ get E v (pathOf q) = .ok c

/-- Every location that parts from the location Set reports holds what it held before (or nothing, as before). No side condition. -/
theorem C20_frame (E : Env) (v v' : V) (ch : Ch) (ps : List Param) (l : List Step) (h : set E v ch ps = (v', .ok l)) :
    ∀ m, Parts l m → v'.at m = v.at m := by
  by_cases hne : ps = []
  · subst hne; unfold set at h; cases hc : ch.err <;> simp [hc, setAt] at h
  · rcases set_spec E v ch ps hne with ⟨m, h1, -, h2⟩ | ⟨e, h1⟩
    · rw [h] at h1 h2; cases h1
      exact setsTo_frame h2
    · rw [h] at h1; cases h1

theorem parts_ne_nil {p q : List Step} (h : Parts p q) : q ≠ [] := by cases h <;> simp

/-- Get on every other path gives what it gave before, when the path does not skip. -/
theorem C20_frame_get_partial (E : Env) (v v' : V) (ch : Ch) (p l : List Step) (hp : Small p) (h : set E v ch (pathOf p) = (v', .ok l))
    (hs : ¬ Skips v (pathOf p)) (q : List Step) (hq : Small q) (hpq : Parts p q) (c : V) :
    get E v' (pathOf q) = .ok c ↔ get E v (pathOf q) = .ok c := by
  have hne : pathOf p ≠ [] := by intro h0; rw [h0] at h; unfold set at h; cases hc : ch.err <;> simp [hc, setAt] at h
  have hl : p = l := by
    rcases set_spec E v ch (pathOf p) hne with ⟨m, h1, -, h2⟩ | ⟨e, h1⟩
    · rw [h] at h1 h2; cases h1
      exact ((addr_pathOf hp).1 (setsTo_addr h2 hs)).1
    · rw [h] at h1; cases h1
  subst hl
  rw [get_pathOf E hq (parts_ne_nil hpq), get_pathOf E hq (parts_ne_nil hpq), C20_frame E v v' ch _ p h q hpq]

theorem C20_counterexample : ¬ C20_statement := by
  intro h
  have := (h sampleEnv (.arr []) (.arr [.obj 1 [⟨asc "a", 1, .bool true⟩] none]) { c := .bool true } [.idx 5, .key (asc "a")] [.idx 0, .key (asc "a")]
    (by intro i hi; simp at hi; omega) (by decide +kernel) [.idx 0] (by intro i hi; simp at hi; omega) (.here _ _ _ _ (by decide)) _).1
    (by decide +kernel : _ = R.ok (.obj 1 [⟨asc "a", 1, .bool true⟩] none))
  exact absurd this (by decide +kernel)

example : Parts [.key (asc "a"), .idx 1, .key (asc "b")] [.key (asc "a"), .idx 0] := .there _ _ _ (.here _ _ _ _ (by decide))
example : (set sampleEnv sampleDoc { c := .bool false } (pathOf [.key (asc "a"), .idx 1, .key (asc "b")])).2 = .ok [.key (asc "a"), .idx 1, .key (asc "b")] ∧
    get sampleEnv (set sampleEnv sampleDoc { c := .bool false } (pathOf [.key (asc "a"), .idx 1, .key (asc "b")])).1
      (pathOf [.key (asc "a"), .idx 0]) = .ok (sampleNum "1") := by decide +kernel

/-! ### C21 -/

/-- A failed Set changes nothing, wherever it fails: the tree is the same in every detail. -/
theorem C21_set (E : Env) (v v' : V) (ch : Ch) (ps : List Param) (e : Err) (h : set E v ch ps = (v', .err e)) : v' = v := by
  by_cases hne : ps = []
  · subst hne; unfold set at h; cases hc : ch.err <;> simp [hc, setAt] at h; exact h.1.symm
  · rcases set_spec E v ch ps hne with ⟨m, h1, -, h2⟩ | ⟨e, h1⟩
    · rw [h] at h1; cases h1
    · rw [h] at h1; cases h1; rfl

theorem C21_insert (E : Env) (after : Bool) (v v' : V) (ch : Ch) (ps : List Param) (e : Err) (h : insert E after v ch ps = (v', .err e)) : v' = v := by
  unfold insert at h
  cases hc : ch.err with
  | some e' => simp [hc] at h; exact h.1.symm
  | none =>
    simp only [hc] at h
    by_cases hne : ps = []
    · subst hne; simp [insertAt] at h
    · rcases insertAt_out E after ch.c ps v [] hne with ⟨l, xs, ys, i, h1, -⟩ | ⟨e, h1⟩ | ⟨h1, -⟩
      · rw [h] at h1; cases h1
      · rw [h] at h1; cases h1; rfl
      · rw [h] at h1; cases h1

theorem C21_append (E : Env) (beg : Bool) (v v' : V) (ch : Ch) (ps : List Param) (e : Err) (h : append E beg v ch ps = (v', .err e)) : v' = v := by
  unfold append at h
  rcases appendAt_out E beg ch.c ps v with ⟨l, xs, ys, i, h1, -⟩ | ⟨ps', v1, l, -, -, h1⟩ | ⟨e, h1⟩ | ⟨h1, -⟩
  · rw [h] at h1; cases h1
  · rw [h] at h1; cases h1
  · rw [h] at h1; cases h1; rfl
  · rw [h] at h1; cases h1

theorem C21_delete (E : Env) (v v' : V) (ps : List Param) (e : Err) (h : delete E false v ps = (v', .err e)) : v' = v := by
  unfold delete at h
  by_cases hne : ps = []
  · subst hne; simp [deleteAt] at h
  · rcases deleteAt_out E ps v [] hne with ⟨l, a, s, b, h1, -⟩ | ⟨e, h1⟩ | ⟨h1, -⟩
    · rw [h] at h1; cases h1
    · rw [h] at h1; cases h1; rfl
    · rw [h] at h1; cases h1

-- a failure three steps down, after a container would have been created
example : set sampleEnv sampleDoc { c := .null } [.str (asc "x"), .str (asc "y"), .int 3] = (sampleDoc, .err .outOfRange) := by decide +kernel
example : insert sampleEnv true sampleDoc { c := .null } [.str (asc "a"), .int 7] = (sampleDoc, .err .outOfRange) := by decide +kernel
example : append sampleEnv false sampleDoc { c := .null } [.str (asc "c")] = (sampleDoc, .err .typeNotMatch) := by decide +kernel
example : delete sampleEnv false sampleDoc [.str (asc "a"), .int 1, .str (asc "x")] = (sampleDoc, .err .notFound) := by decide +kernel

/-! ### C22 -/

/-- Every container on the path of a successful Set existed with the kind the step needs and keeps that kind, or did not exist and is new
with exactly one member: an object for a key, an array with index 0 for an index. So scalars are never replaced by containers, and an
index is at most the length of the array. -/
theorem C22_containers (E : Env) (v v' : V) (ch : Ch) (ps : List Param) (l : List Step) (h : set E v ch ps = (v', .ok l)) :
    ∀ m s r, l = m ++ s :: r → Made v v' m s := by
  by_cases hne : ps = []
  · subst hne; unfold set at h; cases hc : ch.err <;> simp [hc, setAt] at h
  · rcases set_spec E v ch ps hne with ⟨m, h1, -, h2⟩ | ⟨e, h1⟩
    · rw [h] at h1 h2; cases h1
      exact setsTo_made h2
    · rw [h] at h1; cases h1

/-- The last parameter on an existing array (at the root, or addressed by `pre`): an index addressing an element replaces it, the length
appends, anything else is ErrOutOfRange and changes nothing. -/
theorem C22_last_index (E : Env) (v c : V) (pre : List Param) (p : Param) (l : List Step) (xs : List V) (z : Int) (hc : c.uninit = false)
    (hp : Plain pre) (ha : pre = [] ∧ l = [] ∨ Addr v pre l) (hx : v.at l = some (.arr xs)) (hz : intOf p = some z) :
    set E v { c := c } (pre ++ [p]) =
      if z = xs.length then (replace v l (.arr (xs ++ [c])), .ok (l ++ [.idx xs.length]))
      else match index xs.length z with
        | some i => (replace v l (.arr (xs.set i c)), .ok (l ++ [.idx i]))
        | none => (v, .err .outOfRange) := by
  have hps := int_not_slice hz
  have key : ∀ xs : List V, setAt E (.arr xs) c [p] = if z = xs.length then (.arr (xs ++ [c]), .ok [.idx xs.length])
      else match index xs.length z with
        | some i => (.arr (xs.set i c), .ok [.idx i])
        | none => (.arr xs, .err .outOfRange) := by
    intro xs
    rw [setAt_one, setAt1_plain _ _ _ _ hps, if_neg (by simp [uninit_arr, hc])]
    unfold atLastParam
    simp only [anyToInt_eq, hz, setAtIndex_eq]
    by_cases hl : z = xs.length
    · simp [hl]
    · simp only [hl, if_false]
      cases index xs.length z <;> rfl
  simp only [set]
  rcases ha with ⟨rfl, rfl⟩ | ha
  · simp [V.at] at hx; subst hx
    rw [List.nil_append, key]
    rfl
  · rw [setAt_pre E c hc pre v _ l p [] hp ha hx, key]
    by_cases hl : z = xs.length
    · simp [hl]
    · simp only [hl, if_false]
      cases index xs.length z with
      | none => simp [replace_same hx]
      | some i => simp

/-- A missing member that would have to become an array needs index 0: any other index is ErrOutOfRange. -/
theorem C22_created_index (E : Env) (v c : V) (pre : List Param) (k : Bytes) (p : Param) (rest : List Param) (l : List Step) (n kvs low) (z : Int)
    (hc : c.uninit = false) (hp : Plain pre) (ha : pre = [] ∧ l = [] ∨ Addr v pre l) (hx : v.at l = some (.obj n kvs low))
    (hk : (V.obj n kvs low).child (.key k) = none) (hz : intOf p = some z) (h0 : z ≠ 0) :
    set E v { c := c } (pre ++ .str k :: p :: rest) = (v, .err .outOfRange) := by
  have key : setAt E (.obj n kvs low) c (.str k :: p :: rest) = (.obj n kvs low, .err .outOfRange) := by
    rw [setAt_cons _ _ _ _ _ _ rfl rfl hc]
    have hf : freshFor p = none := by
      cases p <;> simp [intOf] at hz <;> simp [freshFor, intOf, hz, h0]
    simp [hk, hf, hz]
  simp only [set]
  rcases ha with ⟨rfl, rfl⟩ | ha
  · simp [V.at] at hx; subst hx
    rw [List.nil_append, key]
  · rw [setAt_pre E c hc pre v _ l _ _ hp ha hx, key]
    simp [replace_same hx]

/-- A scalar (or null) on the path makes Set fail. -/
theorem C22_scalar_fails (E : Env) (v c a : V) (pre : List Param) (p : Param) (rest : List Param) (l : List Step)
    (hp : Plain pre) (ha : Addr v pre l) (hx : v.at l = some a) (h1 : ∀ n kvs low, a ≠ .obj n kvs low) (h2 : ∀ xs, a ≠ .arr xs) :
    ∃ e, set E v { c := c } (pre ++ p :: rest) = (v, .err e) := by
  rcases set_spec E v { c := c } (pre ++ p :: rest) (by simp) with ⟨m, e1, -, e2⟩ | h
  · exfalso
    have hc := (setsTo_not_uninit e2).2
    have hs : set E v { c := c } (pre ++ p :: rest) = setAt E v c (pre ++ p :: rest) := rfl
    rw [hs, setAt_pre E c hc pre v a l p rest hp ha hx] at e1
    rcases setAt_spec E c (p :: rest) a with h | ⟨l', h3, h4⟩ | ⟨e, h3⟩
    · cases h
    · have : ∀ {x y ps l}, SetsTo E c x ps y l → (∃ n kvs low, x = .obj n kvs low) ∨ ∃ xs, x = .arr xs := by
        intro x y ps l h
        induction h with
        | slice _ _ _ _ _ _ ih => exact ih
        | key => exact .inl ⟨_, _, _, rfl⟩
        | idx => exact .inr ⟨_, rfl⟩
        | idxEnd => exact .inr ⟨_, rfl⟩
        | keyIn => exact .inl ⟨_, _, _, rfl⟩
        | keyNew => exact .inl ⟨_, _, _, rfl⟩
        | idxIn => exact .inr ⟨_, rfl⟩
        | idxNew => exact .inr ⟨_, rfl⟩
      rcases this h4 with ⟨n, kvs, low, h⟩ | ⟨xs, h⟩
      · exact h1 _ _ _ h
      · exact h2 _ h
    · rw [h3] at e1; simp at e1
  · exact h

/-- The part of C22 that fails: an index before the last parameter that is outside an existing array is not reported. -/
def C22_statement : Prop := ∀ (E : Env) (xs : List V) (c : V) (p q : Param) (rest : List Param) (z : Int), intOf p = some z →
  index xs.length z = none → z ≠ xs.length → (set E (.arr xs) { c := c } (p :: q :: rest)).2 = .err .outOfRange

theorem C22_counterexample : ¬ C22_statement := by
  intro h
  have := h sampleEnv [] .null (.int 5) (.str (asc "a")) [] 5 (by decide) (by decide) (by decide)
  exact absurd this (by decide +kernel)

-- hypotheses of C22_last_index and C22_created_index met inside a document
example : Addr sampleDoc [.str (asc "a")] [.key (asc "a")] ∧ sampleDoc.at [.key (asc "a")] = some (.arr [sampleNum "1", .obj 1 [⟨asc "b", 1, .null⟩] none]) :=
  ⟨.key _ _ _ _ (.arr [sampleNum "1", .obj 1 [⟨asc "b", 1, .null⟩] none]) (by decide +kernel), by decide +kernel⟩
example : set sampleEnv sampleDoc { c := .null } [.str (asc "x"), .int 1, .int 0] = (sampleDoc, .err .outOfRange) := by decide +kernel

/-! ### C23 -/

/-- Insert(c).Before / .After on the array that `pre` addresses (or the value itself): exactly before or after the element the index
addresses, counting from the end for a negative index; otherwise ErrOutOfRange and no change. -/
theorem C23_insert (E : Env) (after : Bool) (v c : V) (pre : List Param) (p : Param) (l : List Step) (xs : List V) (z : Int)
    (hp : Plain pre) (ha : pre = [] ∧ l = [] ∨ Addr v pre l) (hx : v.at l = some (.arr xs)) (hz : intOf p = some z) :
    insert E after v { c := c } (pre ++ [p]) = match index xs.length z with
      | none => (v, .err .outOfRange)
      | some i =>
        let j := if after then i + 1 else i
        (replace v l (.arr (xs.take j ++ c :: xs.drop j)), .ok (l ++ [.idx j])) :=
  insertAt_path E after v c pre p l xs z hp ha hx hz

/-- Whatever the path (also slices), a successful Insert put the child into one array, moving nothing else; Len grows by one. -/
theorem C23_insert_ok (E : Env) (after : Bool) (v v' : V) (ch : Ch) (ps : List Param) (r : List Step) (h : insert E after v ch ps = (v', .ok r)) :
    ∃ l xs i, r = l ++ [.idx i] ∧ v.at l = some (.arr xs) ∧ i ≤ xs.length ∧
      v'.at l = some (.arr (xs.take i ++ ch.c :: xs.drop i)) ∧ (xs.take i ++ ch.c :: xs.drop i).length = xs.length + 1 ∧
      ∀ m, Parts l m → v'.at m = v.at m := by
  unfold insert at h
  cases hc : ch.err with
  | some e' => simp [hc] at h
  | none =>
    simp only [hc] at h
    by_cases hne : ps = []
    · subst hne; simp [insertAt] at h
    · rcases insertAt_out E after ch.c ps v [] hne with ⟨l, xs, ys, i, h1, h2, ⟨h3, rfl⟩, h4⟩ | ⟨e, h1⟩ | ⟨h1, -⟩
      · rw [h] at h1 h4
        cases h1
        simp only at h4
        subst h4
        exact ⟨l, xs, i, rfl, h2, h3, replace_at _ h2, by simp; omega, replace_frame _ h2⟩
      · rw [h] at h1; cases h1
      · rw [h] at h1; cases h1

example : insert sampleEnv false sampleDoc { c := .null } [.str (asc "a"), .int (-1)] =
    (.obj 2 [⟨asc "a", 1, .arr [sampleNum "1", .null, .obj 1 [⟨asc "b", 1, .null⟩] none]⟩, ⟨asc "c", 2, .bool true⟩] none,
      .ok [.key (asc "a"), .idx 1]) := by decide +kernel

/-! ### C24 -/

/-- Append on an existing array, addressed by a non-empty path without inner slices. -/
theorem C24_append (E : Env) (beg : Bool) (v c : V) (p : Param) (rest : List Param) (l : List Step) (xs : List V)
    (hp : p.isSlice = false) (ha : Addr v (p :: rest) l) (hx : v.at l = some (.arr xs)) :
    append E beg v { c := c } (p :: rest) = if beg then (replace v l (.arr (c :: xs)), .ok (l ++ [.idx 0]))
      else (replace v l (.arr (xs ++ [c])), .ok (l ++ [.idx xs.length])) := by
  simp only [append]
  have hv := addr_not_scalar ha
  rw [appendAt_cons _ _ _ _ _ _ (by rintro rfl; simp at hv) (by rintro rfl; simp at hv)]
  simp only [hp, Bool.false_and, Bool.false_eq_true, if_false, appendPath]
  rw [locArray_ok.2 ⟨ha, xs, hx⟩]
  simp only
  rw [modify_eq _ hx, appendTo_arr]
  cases beg <;> simp [prefixLoc]

/-- Append with no path, on the array itself. -/
theorem C24_append_root (E : Env) (beg : Bool) (c : V) (xs : List V) :
    append E beg (.arr xs) { c := c } [] = if beg then (.arr (c :: xs), .ok [.idx 0]) else (.arr (xs ++ [c]), .ok [.idx xs.length]) := by
  simp only [append, appendAt]
  exact appendTo_arr beg xs c

/-- A path that is missing from an object (Get gives ErrNotFound): Append does what Set(NewArray()) does, and puts the child into the new array;
if that Set fails, so does Append, with nothing changed. -/
theorem C24_append_creates (E : Env) (beg : Bool) (v c : V) (p : Param) (rest : List Param) (hp : p.isSlice = false)
    (hg : get E v (p :: rest) = .err .notFound) :
    (∃ v1 l, set E v { c := newArray } (p :: rest) = (v1, .ok l) ∧
      append E beg v { c := c } (p :: rest) = (replace v1 l (.arr [c]), .ok (l ++ [.idx 0]))) ∨
    (∃ e, set E v { c := newArray } (p :: rest) = (v, .err e) ∧ append E beg v { c := c } (p :: rest) = (v, .err e)) := by
  have hr : (resolve E false v (p :: rest)).2 = .err .notFound := by
    unfold get getC fetch at hg
    match hr : (resolve E false v (p :: rest)).2 with
    | .ok l => rw [hr] at hg; obtain ⟨c, hc⟩ := addr_at ((resolve_iff E v _ l).1 hr); rw [resolve_plain] at hg; simp [hc] at hg
    | .err e => rw [hr] at hg; simpa using hg
    | .panic => rw [hr] at hg; simp at hg
    | .diverge => rw [hr] at hg; simp at hg
  have hl : locArray E v (p :: rest) = .err .notFound := by unfold locArray; rw [hr]
  have hv : v ≠ .nilp ∧ v ≠ .notExist := by
    constructor
    · rintro rfl
      cases rest with
      | nil => rw [resolve_one, resolve1_nonslice _ _ _ _ hp] at hr; simp [locate] at hr
      | cons q qs => unfold resolve at hr; simp [hp, locate] at hr
    · rintro rfl
      cases rest with
      | nil => rw [resolve_one, resolve1_nonslice _ _ _ _ hp] at hr; simp [locate] at hr
      | cons q qs => unfold resolve at hr; simp [hp, locate] at hr
  have ha : append E beg v { c := c } (p :: rest) = appendPath E beg v c (p :: rest) := by
    simp only [append]
    rw [appendAt_cons _ _ _ _ _ _ hv.1 hv.2]
    simp [hp]
  rw [ha]
  unfold appendPath
  rw [hl]
  simp only [set]
  rcases setAt_spec E newArray (p :: rest) v with h' | ⟨l, h1, h2⟩ | ⟨e, h'⟩
  · cases h'
  · left
    have hx := setsTo_at h2
    have hs : setAt E v newArray (p :: rest) = ((setAt E v newArray (p :: rest)).1, .ok l) := Prod.ext rfl h1
    refine ⟨_, l, hs, ?_⟩
    rw [hs]
    simp only
    rw [modify_eq _ hx, newArray, appendTo_arr]
    cases beg <;> simp [prefixLoc]
  · right
    exact ⟨e, h', by rw [h']⟩

/-- Appending to something that is there but is not an array is an error. -/
theorem C24_append_not_array (E : Env) (beg : Bool) (v c d : V) (p : Param) (rest : List Param) (hp : p.isSlice = false)
    (hg : get E v (p :: rest) = .ok d) (hd : ∀ xs, d ≠ .arr xs) (hn : d ≠ .nilp) :
    append E beg v { c := c } (p :: rest) = (v, .err .typeNotMatch) := by
  obtain ⟨l, ha, hx⟩ := (get_iff E v _ d).1 hg
  have hl : locArray E v (p :: rest) = .err .typeNotMatch := by
    unfold locArray
    rw [(resolve_iff E v _ l).2 ha]
    simp only [hx]
  have hv := addr_not_scalar ha
  simp only [append]
  rw [appendAt_cons _ _ _ _ _ _ (by rintro rfl; simp at hv) (by rintro rfl; simp at hv)]
  simp [hp, appendPath, hl]

/-- and so is appending to the value itself when it is not an array -/
theorem C24_append_root_not_array (E : Env) (beg : Bool) (v c : V) (hd : ∀ xs, v ≠ .arr xs) (hn : v ≠ .nilp) :
    ∃ e, append E beg v { c := c } [] = (v, .err e) := by
  simp only [append, appendAt]
  cases v with
  | arr xs => exact absurd rfl (hd xs)
  | nilp => exact absurd rfl hn
  | _ => exact ⟨_, rfl⟩

example : append sampleEnv true sampleDoc { c := .null } [.str (asc "x"), .str (asc "y")] =
    (.obj 3 [⟨asc "a", 1, .arr [sampleNum "1", .obj 1 [⟨asc "b", 1, .null⟩] none]⟩, ⟨asc "c", 2, .bool true⟩,
      ⟨asc "x", 3, .obj 1 [⟨asc "y", 1, .arr [.null]⟩] none⟩] none, .ok [.key (asc "x"), .key (asc "y"), .idx 0]) := by decide +kernel
example : get sampleEnv sampleDoc [.str (asc "x"), .str (asc "y")] = .err .notFound := by decide +kernel

/-! ### C25 -/

/-- Delete succeeds iff Get does, for paths without inner slices. -/
theorem C25_delete_iff_get (E : Env) (v : V) (ps : List Param) (hne : ps ≠ []) (hp : Plain ps) :
    (delete E false v ps).2 = .ok () ↔ ∃ c, get E v ps = .ok c := by
  constructor
  · intro h
    obtain ⟨m, hm⟩ := deleteAt_ok E v ps hp hne h
    obtain ⟨c, hc⟩ := addr_at hm
    exact ⟨c, (get_iff E v ps c).2 ⟨m, hm, hc⟩⟩
  · rintro ⟨c, hc⟩
    obtain ⟨m, hm, -⟩ := (get_iff E v ps c).1 hc
    obtain ⟨l, a, s, b, -, -, -, h⟩ := deleteAt_path E v ps m hp hm
    unfold delete
    rw [h]

/-- the same for the path given as one slice -/
theorem C25_delete_iff_get_slice (E : Env) (v : V) (q : Param) (qs : List Param) (hp : Plain (q :: qs)) :
    (delete E false v [.slice (q :: qs)]).2 = .ok () ↔ ∃ c, get E v [.slice (q :: qs)] = .ok c := by
  have h1 : delete E false v [.slice (q :: qs)] = delete E false v (q :: qs) := by
    unfold delete; rw [deleteAt_one, deleteAt1_slice]
  have h2 : get E v [.slice (q :: qs)] = get E v (q :: qs) := by
    unfold get getC; rw [resolve_one, resolve1_slice]
  rw [h1, h2]
  exact C25_delete_iff_get E v (q :: qs) (by simp) hp

/-- What Delete does, whatever the path: one container `a` (the value itself or inside it) loses exactly the child at one step `s`; everything
else, ids included, is as before. From an object the member goes; in an array later elements move down. -/
theorem C25_delete_ok (E : Env) (v v' : V) (ps : List Param) (hne : ps ≠ []) (h : delete E false v ps = (v', .ok ())) :
    ∃ l a b, v.at l = some a ∧ v' = replace v l b ∧ (∀ m, Parts l m → v'.at m = v.at m) ∧
      ((∃ n kvs low low' k, a = .obj n kvs low ∧ b = .obj n (erase k kvs) low' ∧ k ∈ keys kvs ∧ (erase k kvs).length + 1 = kvs.length ∧
          (∀ k' , k' ≠ k → (keys kvs).Nodup → b.child (.key k') = a.child (.key k')) ∧ ((keys kvs).Nodup → b.child (.key k) = none)) ∨
       (∃ xs i, a = .arr xs ∧ b = .arr (xs.eraseIdx i) ∧ i < xs.length ∧ (xs.eraseIdx i).length + 1 = xs.length ∧
          (∀ j < i, b.child (.idx j) = a.child (.idx j)) ∧ (∀ j ≥ i, b.child (.idx j) = a.child (.idx (j + 1))))) := by
  unfold delete at h
  rcases deleteAt_out E ps v [] hne with ⟨l, a, s, b, h1, h2, h3, h4⟩ | ⟨e, h1⟩ | ⟨h1, -⟩
  · rw [h] at h4
    simp only at h4
    subst h4
    refine ⟨l, a, b, h2, rfl, replace_frame _ h2, ?_⟩
    cases h3 with
    | key n kvs low k hk =>
      left
      have hk' := lookup_isSome.1 hk
      refine ⟨n, kvs, low, _, k, rfl, rfl, hk', length_erase hk', ?_, ?_⟩
      · intro k' hk'' hn
        simp [child_key, lookup_erase _ _ _ hn, Ne.symm hk'']
      · intro hn
        simp [child_key, lookup_erase _ _ _ hn]
    | idx xs i hi =>
      right
      refine ⟨xs, i, rfl, rfl, hi, by rw [List.length_eraseIdx]; simp [hi]; omega, ?_, ?_⟩
      · intro j hj; simp [child_idx, List.getElem?_eraseIdx, hj]
      · intro j hj; simp [child_idx, List.getElem?_eraseIdx, show ¬ j < i by omega]
  · rw [h] at h1; cases h1
  · rw [h] at h1; cases h1

/-- What Delete removes is what Get addresses: with `Get(ps)` at location `l ++ [s]`, it is the child `s` of the node at `l`. -/
theorem C25_delete_target (E : Env) (v : V) (ps : List Param) (m : List Step) (hp : Plain ps) (h : Addr v ps m) :
    ∃ l a s b, m = l ++ [s] ∧ v.at l = some a ∧ DelStep E a s b ∧ delete E false v ps = (replace v l b, .ok ()) :=
  deleteAt_path E v ps m hp h

example : delete sampleEnv false sampleDoc [.str (asc "a"), .int (-2)] =
    (.obj 2 [⟨asc "a", 1, .arr [.obj 1 [⟨asc "b", 1, .null⟩] none]⟩, ⟨asc "c", 2, .bool true⟩] none, .ok ()) := by decide +kernel

/-! ### C28 -/

theorem C28_get (E : Env) (cl : Bool) (v : V) (q : Param) (qs : List Param) : getC E cl v [.slice (q :: qs)] = getC E cl v (q :: qs) := by
  unfold getC
  rw [resolve_one, resolve1_slice]
theorem C28_set (E : Env) (v : V) (ch : Ch) (q : Param) (qs : List Param) : set E v ch [.slice (q :: qs)] = set E v ch (q :: qs) := by
  unfold set
  rw [setAt_one, setAt1_slice]
theorem C28_insert (E : Env) (after : Bool) (v : V) (ch : Ch) (q : Param) (qs : List Param) :
    insert E after v ch [.slice (q :: qs)] = insert E after v ch (q :: qs) := by
  unfold insert
  rw [insertAt_one, insertAt1_slice]
theorem C28_delete (E : Env) (cl : Bool) (v : V) (q : Param) (qs : List Param) : delete E cl v [.slice (q :: qs)] = delete E cl v (q :: qs) := by
  unfold delete
  rw [deleteAt_one, deleteAt1_slice]
theorem C28_append (E : Env) (beg : Bool) (v : V) (ch : Ch) (q : Param) (qs : List Param) :
    append E beg v ch [.slice (q :: qs)] = append E beg v ch (q :: qs) := by
  unfold append
  match v with
  | .nilp => rfl
  | .notExist => rfl
  | .arr xs => rw [appendAt_cons _ _ _ _ _ _ (by simp) (by simp)]; simp [Param.isSlice, appendAt1]
  | .obj n kvs low => rw [appendAt_cons _ _ _ _ _ _ (by simp) (by simp)]; simp [Param.isSlice, appendAt1]
  | .str _ => rw [appendAt_cons _ _ _ _ _ _ (by simp) (by simp)]; simp [Param.isSlice, appendAt1]
  | .num _ _ => rw [appendAt_cons _ _ _ _ _ _ (by simp) (by simp)]; simp [Param.isSlice, appendAt1]
  | .bool _ => rw [appendAt_cons _ _ _ _ _ _ (by simp) (by simp)]; simp [Param.isSlice, appendAt1]
  | .null => rw [appendAt_cons _ _ _ _ _ _ (by simp) (by simp)]; simp [Param.isSlice, appendAt1]

/-- C28's last clause as stated: a slice followed by further parameters is an error, for all five operations. -/
def C28_statement : Prop := ∀ (E : Env) (v : V) (ch : Ch) (after : Bool) (pre : List Param) (qs : List Param) (r : Param) (rs : List Param),
  (∀ c, get E v (pre ++ .slice qs :: r :: rs) ≠ .ok c) ∧ (∀ l, (set E v ch (pre ++ .slice qs :: r :: rs)).2 ≠ .ok l) ∧
  (∀ l, (insert E after v ch (pre ++ .slice qs :: r :: rs)).2 ≠ .ok l) ∧ (∀ l, (append E after v ch (pre ++ .slice qs :: r :: rs)).2 ≠ .ok l) ∧
  (delete E false v (pre ++ .slice qs :: r :: rs)).2 ≠ .ok ()

/-- For Get, Set and Append the clause holds at any place of the slice; for Insert and Delete when the slice comes first. -/
theorem C28_slice_then_more_partial (E : Env) (v : V) (ch : Ch) (after : Bool) (qs : List Param) (r : Param) (rs : List Param) :
    (∀ pre c, get E v (pre ++ .slice qs :: r :: rs) ≠ .ok c) ∧ (∀ pre l, (set E v ch (pre ++ .slice qs :: r :: rs)).2 ≠ .ok l) ∧
    (∀ pre l, (append E after v ch (pre ++ .slice qs :: r :: rs)).2 ≠ .ok l) ∧
    (∀ l, (insert E after v ch (.slice qs :: r :: rs)).2 ≠ .ok l) ∧ (delete E false v (.slice qs :: r :: rs)).2 ≠ .ok () := by
  have hget : ∀ v pre l, ¬ Addr v (pre ++ .slice qs :: r :: rs) l := by
    intro v pre l h
    have := addr_slice_last h pre _ _ _ rfl
    simp [Param.isSlice] at this
  have hset : ∀ c pre l v', ¬ SetsTo E c v (pre ++ .slice qs :: r :: rs) v' l := by
    intro c pre l v' h
    have := setsTo_slice_last h pre _ _ _ rfl
    simp [Param.isSlice] at this
  refine ⟨?_, ?_, ?_, ?_, ?_⟩
  · intro pre c h
    obtain ⟨l, h1, -⟩ := (get_iff E v _ c).1 h
    exact hget _ _ _ h1
  · intro pre l h
    rcases set_spec E v ch (pre ++ .slice qs :: r :: rs) (by simp) with ⟨m, -, -, h2⟩ | ⟨e, h1⟩
    · exact hset _ _ _ _ h2
    · rw [h1] at h; cases h
  · intro pre l h
    obtain ⟨p, ps, hps⟩ : ∃ p ps, pre ++ .slice qs :: r :: rs = p :: ps := by cases pre <;> simp
    have hslice : p.isSlice = true → ps ≠ [] := by
      intro _
      cases pre with
      | nil => simp at hps; rw [← hps.2]; simp
      | cons a as => simp at hps; rw [← hps.2]; simp
    unfold append at h
    rw [hps] at h
    by_cases h1 : v = .nilp
    · subst h1; cases after <;> simp [appendAt] at h
    · by_cases h2 : v = .notExist
      · subst h2; simp [appendAt] at h
      · rw [appendAt_cons _ _ _ _ _ _ h1 h2] at h
        by_cases hp : p.isSlice = true
        · have := hslice hp
          simp [hp, this] at h
        · simp [hp] at h
          unfold appendPath at h
          rcases locArray_cases E v (p :: ps) with ⟨m, h3⟩ | ⟨e, h3⟩ | ⟨h3, -⟩
          · have := (locArray_ok.1 h3).1
            rw [← hps] at this
            exact hget _ _ _ this
          · rw [h3] at h
            rcases setAt_spec E newArray (p :: ps) v with h' | ⟨l, h1, h2⟩ | ⟨e', h'⟩
            · cases h'
            · rw [← hps] at h2
              exact hset _ _ _ _ h2
            · rw [h'] at h
              cases e <;> simp at h
          · rw [h3] at h; simp at h
  · intro l h
    unfold insert at h
    cases hc : ch.err with
    | some e => simp [hc] at h
    | none =>
      simp only [hc] at h
      obtain ⟨pre, p, hp⟩ : ∃ pre p, r :: rs = pre ++ [p] :=
        ⟨(r :: rs).dropLast, (r :: rs).getLast (by simp), (List.dropLast_concat_getLast (by simp)).symm⟩
      rw [hp, ← List.cons_append, insertAt_pre, List.nil_append, insertAt_last] at h
      simp [Param.isSlice] at h
  · intro h
    unfold delete at h
    obtain ⟨pre, p, hp⟩ : ∃ pre p, r :: rs = pre ++ [p] :=
      ⟨(r :: rs).dropLast, (r :: rs).getLast (by simp), (List.dropLast_concat_getLast (by simp)).symm⟩
    rw [hp, ← List.cons_append, deleteAt_pre, List.nil_append, deleteAt_last] at h
    simp [Param.isSlice] at h

/-- `Delete("a", []any{1}, "b")` succeeds although `Get("a", []any{1}, "b")` does not. -/
theorem C28_counterexample : ¬ C28_statement := by
  intro h
  have := (h sampleEnv sampleDoc { c := .null } true [.str (asc "a")] [.int 1] (.str (asc "b")) []).2.2.2.2
  exact this (by decide +kernel)

example : get sampleEnv sampleDoc [.slice [.str (asc "a"), .int 1, .str (asc "b")]] = .ok .null := by decide +kernel

/-! ### C29 -/

/-- An integer on an array: signed indexes of any value, unsigned ones below 2^63. -/
theorem C29_index_partial (E : Env) (xs : List V) (p : Param) (z : Int)
    (hp : (∃ i, p = .int i ∧ z = i.toInt) ∨ (∃ u, p = .uint u ∧ z = u.toNat ∧ u.toNat < 2 ^ 63)) :
    (0 ≤ z → z < xs.length → get E (.arr xs) [p] = (match xs[z.toNat]? with | some c => .ok c | none => .panic)) ∧
    (z < 0 → -(xs.length : Int) ≤ z → get E (.arr xs) [p] = (match xs[(xs.length + z).toNat]? with | some c => .ok c | none => .panic)) ∧
    (z ≥ xs.length ∨ z < -(xs.length : Int) → get E (.arr xs) [p] = .err .outOfRange) := by
  have hz : intOf p = some z := by
    rcases hp with ⟨i, rfl, rfl⟩ | ⟨u, rfl, rfl, hu⟩
    · rfl
    · simp only [intOf]
      rw [BitVec.toInt_eq_toNat_of_lt (by omega)]
  have hg : get E (.arr xs) [p] = match index xs.length z with
      | some i => match xs[i]? with | some c => .ok c | none => .panic
      | none => .err .outOfRange := by
    unfold get getC fetch
    rw [resolve_one, resolve1_nonslice _ _ _ _ (int_not_slice hz), locate_arr, hz]
    simp only
    cases index xs.length z with
    | none => rfl
    | some i =>
      simp only [R.bind_ok, R.pure_eq, V.at, child_idx]
      cases xs[i]? <;> rfl
  rw [hg]
  unfold index
  refine ⟨?_, ?_, ?_⟩
  · intro h1 h2; rw [if_pos ⟨h1, h2⟩]
  · intro h1 h2; rw [if_neg (by omega), if_pos ⟨h2, h1⟩]
  · intro h; rw [if_neg (by omega), if_neg (by omega)]

/-- the elements named above exist -/
theorem C29_index_in_range (xs : List V) (z : Int) :
    (0 ≤ z → z < xs.length → ∃ c, xs[z.toNat]? = some c) ∧ (z < 0 → -(xs.length : Int) ≤ z → ∃ c, xs[(xs.length + z).toNat]? = some c) := by
  constructor
  · intro h1 h2; exact ⟨_, List.getElem?_eq_getElem (by omega)⟩
  · intro h1 h2; exact ⟨_, List.getElem?_eq_getElem (by omega)⟩

/-- A parameter that is not an integer on an array, or not a string on an object, is an error, never an element. -/
theorem C29_kind_mismatch (E : Env) (v : V) (p : Param) (hs : p.isSlice = false) :
    (∀ xs, v = .arr xs → intOf p = none → ∃ e, get E v [p] = .err e) ∧
    (∀ n kvs low, v = .obj n kvs low → (∀ k, p ≠ .str k) → get E v [p] = .err .parameterError) := by
  constructor
  · rintro xs rfl h
    refine ⟨intErr p, ?_⟩
    unfold get getC fetch
    rw [resolve_one, resolve1_nonslice _ _ _ _ hs, locate_arr, h]
    rfl
  · rintro n kvs low rfl h
    unfold get getC fetch
    rw [resolve_one, resolve1_nonslice _ _ _ _ hs, locate_obj]
    cases p with
    | str k => exact absurd rfl (h k)
    | _ => rfl

/-- C29 as stated for unsigned indexes: out of range when at least the length. -/
def C29_statement : Prop := ∀ (E : Env) (xs : List V) (u : BitVec 64), xs.length ≤ u.toNat → get E (.arr xs) [.uint u] = .err .outOfRange

/-- `Get(uint64(math.MaxUint64))` returns the last element. -/
theorem C29_counterexample : ¬ C29_statement := by
  intro h
  have := h sampleEnv [.null] (BitVec.ofNat 64 (2 ^ 64 - 1)) (by decide)
  exact absurd this (by decide +kernel)

example : get sampleEnv (.arr [.null, .bool true]) [.int (-1)] = .ok (.bool true) ∧ get sampleEnv (.arr [.null, .bool true]) [.uint 2] = .err .outOfRange := by
  decide +kernel

/-! ### C43, plain reads -/

/-- Get (and every typed getter, which calls it) leaves the tree exactly as it was, also when it fails. -/
theorem C43_get (E : Env) (v : V) (ps : List Param) : (getC E false v ps).1 = v := resolve_plain E ps v

/-! ### C31, second half -/

/-- MustGet never panics and never returns nil on a value without nil pointers inside: it returns what Get finds or a NotExist value. -/
theorem C31_mustGet (E : Env) (v : V) (ps : List Param) (hne : ps ≠ []) (h : NoNil v) :
    ∃ c, mustGet E v ps = .ok c ∧ c ≠ .nilp ∧ (get E v ps = .ok c ∨ c = .notExist ∧ ∃ e, get E v ps = .err e) := by
  unfold mustGet
  have hg : get E v ps = fetch v (resolve E false v ps).2 := by unfold get getC; rw [resolve_plain]
  rcases resolve_cases E ps v with ⟨l, hr⟩ | ⟨e, hr⟩ | ⟨hr, hn⟩
  · obtain ⟨c, hc⟩ := addr_at ((resolve_iff E v ps l).1 hr)
    have hgo : get E v ps = .ok c := by rw [hg, hr]; simp [fetch, hc]
    exact ⟨c, by rw [hgo], fun h0 => h l (by rw [hc, h0]), .inl hgo⟩
  · have hgo : get E v ps = .err e := by rw [hg, hr]; rfl
    exact ⟨.notExist, by rw [hgo], by simp, .inr ⟨rfl, e, hgo⟩⟩
  · rcases hn with hn | ⟨m, hm⟩
    · exact absurd hn hne
    · exact absurd hm (h m)

end JV
