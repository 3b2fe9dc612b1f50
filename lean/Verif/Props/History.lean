import Verif.Proofs.ObjRun
import Verif.Props.Modify
/-!
C26, C27, C43 (caseless reads), C46: histories of public calls.
-/
namespace JV
open Spec

/-! ### C26 -/

/-- For every history of Set, Delete, Caseless().Delete, Get and Caseless().Get on an object that was built by public calls, with Go's maps
iterated in any order: the same history on an abstract finite map ends in a map `M` such that afterwards Get(k) gives `M k` or
ErrNotFound, and Len() is the number of keys of `M`. -/
theorem C26_object_is_map (E : Env) (v w : V) (ops : List ObjOp) (hb : Built E Any v) (ho : isObject v = .ok true) (h : ObjRun E v ops w) :
    ∃ M, MapRun E (members v) ops M ∧ (∀ k, get E w [.str k] = match M k with | some c => .ok c | none => .err .notFound) ∧
      ∃ ks : List Bytes, ks.Nodup ∧ (∀ k, k ∈ ks ↔ (M k).isSome = true) ∧ len w = .ok ks.length := by
  have hv : IsObj v := by
    cases v <;> simp [isObject, onV] at ho
    exact ⟨_, _, _, rfl⟩
  obtain ⟨h1, h2, h3⟩ := objRun_map h hv (built_good hb [] v rfl)
  refine ⟨members w, h1, get_members E h2, ?_⟩
  obtain ⟨n, kvs, low, rfl⟩ := h2
  exact ⟨keys kvs, h3.1, fun k => members_some.symm, by simp [len, keys]⟩

/-- Get(k) returns the value of the last Set(k) not followed by a Delete that can concern `k`. -/
theorem C26_last_set (E : Env) (v w : V) (pre post : List ObjOp) (k : Bytes) (c : V) (hb : Built E Any v) (ho : isObject v = .ok true)
    (h : ObjRun E v (pre ++ .set k c :: post) w) (hc : c.uninit = false) (hp : ∀ op ∈ post, ¬ op.touches E k) : get E w [.str k] = .ok c := by
  obtain ⟨M, h1, h2, -⟩ := C26_object_is_map E v w _ hb ho h
  obtain ⟨N, -, h3⟩ := mapRun_append h1
  rw [h2]
  have : M k = some c := by
    cases h3 with
    | set _ _ _ _ _ _ h4 => rw [mapRun_untouched h4 k hp]; exact if_pos rfl
    | setBad _ _ _ _ _ hc' _ => rw [hc] at hc'; cases hc'
  rw [this]

/-- After Delete(k) and no further Set(k), Get(k) fails with ErrNotFound. -/
theorem C26_after_delete (E : Env) (v w : V) (pre post : List ObjOp) (k : Bytes) (hb : Built E Any v) (ho : isObject v = .ok true)
    (h : ObjRun E v (pre ++ .del k :: post) w) (hp : ∀ op ∈ post, ¬ op.touches E k) : get E w [.str k] = .err .notFound := by
  obtain ⟨M, h1, h2, -⟩ := C26_object_is_map E v w _ hb ho h
  obtain ⟨N, -, h3⟩ := mapRun_append h1
  rw [h2]
  have : M k = none := by
    cases h3 with
    | del _ _ _ _ h4 => rw [mapRun_untouched h4 k hp]; exact if_pos rfl
  rw [this]

/-- A member that no operation of the history concerns stays what it was. -/
theorem C26_untouched (E : Env) (v w : V) (ops : List ObjOp) (k : Bytes) (hb : Built E Any v) (ho : isObject v = .ok true)
    (h : ObjRun E v ops w) (hp : ∀ op ∈ ops, ¬ op.touches E k) : get E w [.str k] = get E v [.str k] := by
  have hv : IsObj v := by
    cases v <;> simp [isObject, onV] at ho
    exact ⟨_, _, _, rfl⟩
  obtain ⟨M, h1, h2, -⟩ := C26_object_is_map E v w _ hb ho h
  rw [h2, get_members E hv, mapRun_untouched h1 k hp]
  cases members v k <;> rfl

/-- For every history of Set, Insert, Append, Delete and Get on an array the contents are those of the same history on a list. -/
theorem C26_array_is_list (E : Env) (xs : List V) (ops : List ArrOp) :
    ops.foldl (ArrOp.run E) (.arr xs) = .arr (ops.foldl ArrOp.list xs) := by
  induction ops generalizing xs with
  | nil => rfl
  | cons op ops ih => simp only [List.foldl_cons, run_arr, ih]

/-- and Get(i) and Len() read that list -/
theorem C26_array_read (E : Env) (xs : List V) (z : BitVec 64) :
    len (.arr xs) = .ok xs.length ∧
    get E (.arr xs) [.int z] = match index xs.length z.toInt with
      | some i => match xs[i]? with | some c => .ok c | none => .panic
      | none => .err .outOfRange := by
  refine ⟨rfl, ?_⟩
  unfold get getC
  rw [resolve_one, resolve1_locate _ _ _ _ rfl, locate_arr]
  simp only [intOf]
  cases hi : index xs.length z.toInt with
  | none => rfl
  | some i =>
    simp only [R.bind_ok, R.pure_eq, fetch, V.at, V.child]
    cases xs[i]? <;> rfl

-- a history with a repeated key, a delete and a caseless delete of a key spelled differently
example : [ObjOp.set (asc "A") .null, .set (asc "b") (.bool true), .cdel (asc "a"), .set (asc "b") .null, .del (asc "x")].foldl (ObjOp.run sampleEnv) newObject =
    .obj 3 [⟨asc "b", 3, .null⟩] (some [(asc "b", [asc "b"])]) := by decide +kernel
example : [ArrOp.append false .null, .insert true (-1) (.bool true), .set 5 .null, .del (-2), .append true (.bool false)].foldl ArrOp.list [] =
    [.bool false, .bool true] := by decide +kernel

/-! ### C27 -/

/-- Caseless().Get(k) on an object after any history: it returns the member `k` if there is one, otherwise some member whose lower-cased
key equals the lower-cased `k`, and fails with ErrNotFound exactly if there is none. -/
theorem C27_caseless_get (E : Env) (v : V) (k : Bytes) (hb : Built E Any v) (ho : isObject v = .ok true) :
    (∃ k' c, Picks E (members v) k k' ∧ members v k' = some c ∧ (getC E true v [.str k]).2 = .ok c) ∨
    ((∀ k', ¬ Picks E (members v) k k') ∧ (getC E true v [.str k]).2 = .err .notFound) := by
  cases v <;> simp [isObject, onV] at ho
  rename_i n kvs low
  have hg := built_good hb [] _ rfl
  unfold getC
  rw [resolve_one, resolve1_locate _ _ _ _ rfl, locate_str]
  rcases findKey_picks (n := n) hg.2 k with ⟨k', h1, h2⟩ | ⟨h1, h2⟩
  · left
    obtain ⟨c, hc⟩ := Option.isSome_iff_exists.1 h2.1
    refine ⟨k', c, h2, hc, ?_⟩
    rw [h1]
    simp only [members] at hc
    simp [fetch, V.at, child_low n kvs _ low, hc]
  · right
    exact ⟨h2, by rw [h1]; rfl⟩

/-- Caseless().Delete(k) removes exactly one such member and nothing else, or fails with ErrNotFound and removes nothing. -/
theorem C27_caseless_delete (E : Env) (v : V) (k : Bytes) (hb : Built E Any v) (ho : isObject v = .ok true) :
    (∃ k', Picks E (members v) k k' ∧ (delete E true v [.str k]).2 = .ok () ∧
      members (delete E true v [.str k]).1 = fun x => if x = k' then none else members v x) ∨
    ((∀ k', ¬ Picks E (members v) k k') ∧ (delete E true v [.str k]).2 = .err .notFound ∧ SameObs v (delete E true v [.str k]).1) := by
  cases v <;> simp [isObject, onV] at ho
  rename_i n kvs low
  have hg := built_good hb [] _ rfl
  rw [delete_one, deleteLast_str]
  rcases findKey_picks (n := n) hg.2 k with ⟨k', h1, h2⟩ | ⟨h1, h2⟩
  · left
    refine ⟨k', h2, by rw [h1], ?_⟩
    rw [h1]
    exact members_erase (low := low) hg.1
  · right
    refine ⟨h2, by rw [h1], ?_⟩
    rw [h1]
    simp only
    rw [sameObs_iff]
    refine ⟨rfl, fun s => ?_⟩
    rw [child_low n kvs (findKey E true kvs low k).1 low]
    cases (V.obj n kvs low).child s with
    | none => trivial
    | some c => exact SameObs.refl c

/-- A caseless path is taken step by step in this way: Get returns what is at a location that such steps lead to, or fails at a step
that no member (or element) matches. -/
theorem C27_caseless_path (E : Env) (v : V) (ps : List Param) (hb : Built E Any v) (hn : NoNil v) (hne : ps ≠ []) (hp : Plain ps) :
    (∃ l c, CAddr E v ps l ∧ v.at l = some c ∧ (getC E true v ps).2 = .ok c) ∨
    ((∃ e, (getC E true v ps).2 = .err e) ∧
      ∃ pre p post l a, ps = pre ++ p :: post ∧ CAddr E v pre l ∧ v.at l = some a ∧ ∀ s, ¬ CStep E a p s) := by
  rcases resolve_caddr ps v hne hp (built_good hb) with ⟨l, h1, h2, h3⟩ | ⟨⟨e, h1⟩, h2⟩ | ⟨-, m, hm⟩
  · left
    obtain ⟨c, hc⟩ := resolve_at E true ps v l h1
    refine ⟨l, c, h2, by rw [← h3]; exact hc, ?_⟩
    unfold getC
    rw [h1]; simp [fetch, hc]
  · right
    refine ⟨⟨e, ?_⟩, h2⟩
    unfold getC
    rw [h1]; rfl
  · exact absurd hm (hn m)

/-- Caseless().Delete along a path of any length: the member or element that the last parameter picks in the object or array that the others lead
to is taken out and nothing else shows a change; or some parameter picks nothing, the call fails and nothing shows a change. -/
theorem C27_caseless_delete_path (E : Env) (v : V) (pre : List Param) (p : Param) (hb : Built E Any v) (hn : NoNil v) (hp : Plain (pre ++ [p])) :
    (∃ l a s b, CAddr E v pre l ∧ v.at l = some a ∧ CStep E a p s ∧ Taken a s b ∧ (delete E true v (pre ++ [p])).2 = .ok () ∧
      (delete E true v (pre ++ [p])).1.at l = some b ∧ ∀ m, Parts l m → ((delete E true v (pre ++ [p])).1.at m).map info = (v.at m).map info) ∨
    ((∃ e, (delete E true v (pre ++ [p])).2 = .err e) ∧ SameObs v (delete E true v (pre ++ [p])).1 ∧
      ∃ pre' q post l a, pre ++ [p] = pre' ++ q :: post ∧ CAddr E v pre' l ∧ v.at l = some a ∧ ∀ s, ¬ CStep E a q s) :=
  deleteAt_cpath hp (built_good hb) hn

-- a member three steps down, no key written as it is stored
example : delete sampleEnv true (.obj 1 [⟨asc "Ab", 1, .arr [.obj 2 [⟨asc "X", 1, .null⟩, ⟨asc "y", 2, .null⟩] none]⟩] none) [.str (asc "aB"), .int (-1), .str (asc "x")] =
    (.obj 1 [⟨asc "Ab", 1, .arr [.obj 2 [⟨asc "y", 2, .null⟩] (some [(asc "y", [asc "y"])])]⟩] (some [(asc "ab", [asc "Ab"])]), .ok ()) := by decide +kernel
/-- The index stays exact: in every value built by public calls, every object's cache, if there is one, lists exactly the keys present. -/
theorem C27_index_exact (E : Env) (v : V) (hb : Built E Any v) : Her (GoodNode E) v := built_good hb

-- a stale or incomplete index would give another answer: build the index, then set and delete, then ask again
example : (getC sampleEnv true ([ObjOp.set (asc "Key") .null, .cget (asc "KEY"), .set (asc "kEY") (.bool true), .del (asc "Key")].foldl (ObjOp.run sampleEnv) newObject)
    [.str (asc "keY")]).2 = .ok (.bool true) := by decide +kernel
example : Built sampleEnv Any ([ObjOp.set (asc "Key") .null, .cget (asc "KEY"), .set (asc "kEY") (.bool true), .del (asc "Key")].foldl (ObjOp.run sampleEnv) newObject) :=
  .delete _ _ _ (.set _ _ _ (.read _ _ _ (.set _ _ _ .object (.scalar _ trivial trivial))) (.scalar _ trivial trivial))
-- a broken index is not `Coh`: the theorems would not hold without the invariant
example : ¬ Coh sampleEnv [⟨asc "K", 1, .null⟩] (some []) := by
  rintro ⟨-, h⟩
  have := (h (asc "k") (asc "K")).2 ⟨by decide +kernel, by decide +kernel⟩
  obtain ⟨_, h, _⟩ := this
  simp at h

/-! ### C43, caseless reads -/

/-- Caseless().Get, successful or not, on any tree and with any path, changes nothing that can be seen: it only fills caches. -/
theorem C43_caseless_get (E : Env) (cl : Bool) (v : V) (ps : List Param) : SameObs v (getC E cl v ps).1 := sameObs_resolve E cl ps v

-- the cache does change
example : (getC sampleEnv true sampleDoc [.str (asc "C")]).1 ≠ sampleDoc := by decide +kernel

/-! ### C46 -/

/-- C46 as stated, for the tree operations. False: see `C46_counterexample`. -/
def C46_statement : Prop := ∀ (E : Env) (v : V) (l : List Step), Built E Any v → Solid v → v.at l ≠ some .nilp ∧ v.at l ≠ some .notExist

/-- Whatever is built by public calls from scalars that are neither nil nor NotExist contains no hole at any depth: every node reached is
a JSON value. -/
theorem C46_no_holes_partial (E : Env) (v : V) (l : List Step) (hb : Built E Solid v) : v.at l ≠ some .nilp ∧ v.at l ≠ some .notExist :=
  ⟨fun h => (built_solid hb l _ h).2.1 rfl, fun h => (built_solid hb l _ h).2.2 rfl⟩

/-- Set never stores a hole: if it succeeds, the child is a JSON value. -/
theorem C46_set_refuses (E : Env) (v v' : V) (ch : Ch) (ps : List Param) (l : List Step) (h : set E v ch ps = (v', .ok l)) :
    Solid ch.c := by
  by_cases hne : ps = []
  · subst hne; unfold set at h; cases hc : ch.err <;> simp [hc, setAt] at h
  · rcases set_spec E v ch ps hne with ⟨m, -, -, h2⟩ | ⟨e, h1⟩
    · have := (setsTo_not_uninit h2).2
      constructor <;> (intro he; rw [he] at this; simp [V.uninit] at this)
    · rw [h] at h1; cases h1

/-- `NewArray().Append(&V{}).InTheEnd()` succeeds and leaves a NotExist element in the array; so does an `Append` of a Go value that
cannot be imported, because the error is not looked at. -/
theorem C46_counterexample : ¬ C46_statement := by
  intro h
  have hb : Built sampleEnv Any (append sampleEnv false newArray { c := .notExist } []).1 :=
    .append _ _ _ _ .array (.scalar _ trivial trivial)
  exact (h sampleEnv _ [.idx 0] hb ⟨by decide +kernel, by decide +kernel⟩).2 (by decide +kernel)

/-- the call reports success -/
theorem C46_append_bad_child (E : Env) (xs : List V) (e : Err) :
    append E false (.arr xs) { c := .notExist, err := some e } [] = (.arr (xs ++ [.notExist]), .ok [.idx xs.length]) := by
  simp only [append, appendAt]
  exact appendTo_arr false xs .notExist

/-- Exactly when Append and Insert put a hole into a value without holes: if they succeed and the child is a hole or has one. What they
report is the place of the child. (If they fail nothing changes, C21; Set refuses such a child unless the hole is further down.) -/
theorem C46_step_exact (E : Env) (v v' : V) (ch : Ch) (ps : List Param) (l : List Step) (hv : Her Solid v) :
    (∀ beg, append E beg v ch ps = (v', .ok l) → v'.at l = some ch.c ∧ (Her Solid v' ↔ Her Solid ch.c)) ∧
    (∀ after, insert E after v ch ps = (v', .ok l) → v'.at l = some ch.c ∧ (Her Solid v' ↔ Her Solid ch.c)) ∧
    (set E v ch ps = (v', .ok l) → v'.at l = some ch.c ∧ (Her Solid v' ↔ Her Solid ch.c)) := by
  have hP := closed_solid E
  refine ⟨fun beg h => ?_, fun after h => ?_, fun h => ?_⟩
  · have hat : v'.at l = some ch.c := by
      have h' := h
      unfold append at h'
      rcases appendAt_out E beg ch.c ps v with ⟨m, xs, ys, i, h1, h2, h3, h4⟩ | ⟨ps', v1, m, -, h2, h3⟩ | ⟨e, h1⟩ | ⟨h1, -⟩
      · rw [h'] at h1 h4
        cases h1
        simp only at h4
        rw [h4, at_append, replace_at _ h2]
        unfold ApdP at h3
        cases beg <;> simp at h3 <;> simp [h3, V.at, V.child]
      · rw [h'] at h3
        cases h3
        rw [at_append, replace_at _ (setsTo_at h2)]
        rfl
      · rw [h'] at h1; cases h1
      · rw [h'] at h1; cases h1
    refine ⟨hat, fun hh => her_at hh hat, fun hc => ?_⟩
    have := her_append hP beg ps hv hc
    rwa [h] at this
  · obtain ⟨m, xs, i, rfl, -, hi, h3, -, -⟩ := C23_insert_ok E after v v' ch ps l h
    have hat : v'.at (m ++ [.idx i]) = some ch.c := by
      rw [at_append, h3]
      simp [V.at, V.child, Nat.min_eq_left hi]
    refine ⟨hat, fun hh => her_at hh hat, fun hc => ?_⟩
    have := her_insert hP after ps hv hc
    rwa [h] at this
  · have hat := (C19_returns_child E v v' ch ps l h).1
    refine ⟨hat, fun hh => her_at hh hat, fun hc => ?_⟩
    have := her_set hP ps hv hc
    rwa [h] at this

example : append sampleEnv false (.arr [.null]) { c := .arr [.notExist] } [] = (.arr [.null, .arr [.notExist]], .ok [.idx 1]) := by decide +kernel

/-- On a value without holes Get never panics. -/
theorem C46_get_total (E : Env) (v : V) (ps : List Param) (hb : Built E Solid v) (hne : ps ≠ []) :
    (∃ c, get E v ps = .ok c ∧ Solid c) ∨ ∃ e, get E v ps = .err e := by
  have hn : NoNil v := fun l => (C46_no_holes_partial E v l hb).1
  obtain ⟨c, -, h2, h3⟩ := C31_mustGet E v ps hne hn
  rcases h3 with h3 | ⟨-, h3⟩
  · obtain ⟨l, -, hx⟩ := (get_iff E v ps c).1 h3
    exact .inl ⟨c, h3, (built_solid hb l c hx).2⟩
  · exact .inr h3

example : Built sampleEnv Solid (append sampleEnv false (set sampleEnv newObject { c := newArray } [.str (asc "a")]).1 { c := .null } [.str (asc "a")]).1 :=
  .append _ _ _ _ (.set _ _ _ .object .array) (.scalar _ trivial ⟨nofun, nofun⟩)

end JV
