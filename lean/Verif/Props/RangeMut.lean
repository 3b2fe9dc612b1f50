import Verif.Proofs.RangeMut
import Verif.Props.History
import Verif.Props.Order
/-!
C65: what happens when the callback of an iteration changes the value that is iterated over.
-/
namespace JV
open Spec
variable {α σ : Type}

instance natNil : HasNil Nat := ⟨0⟩

/-- C65 as a user would have it: RangeArray calls the callback once for every element that was there when the loop began, whatever the callback does -/
def C65_statement : Prop :=
  ∀ (σ α : Type) [HasNil α] (grow : Nat → Nat) (cb : ArrCallback σ α) (s : σ) (a : ArrV α), WFArr a →
    outcome (rangeArrayMut grow cb s a) = snapshotLoop cb a.view.zipIdx s a.view

/-- The array as a slice of a backing array, with append, assignments and copy as Go does them, behaves like the list of its elements under every
history of operations, whatever capacity the arrays have; and no other array is touched. -/
theorem C65_refines [HasNil α] (grow : Nat → Nat) (os : List (SliceOp α)) (a : ArrV α) (h : WFArr a) :
    (∃ b, a.ops grow os = .ok b ∧ listOps os a.view = .ok b.view ∧ WFArr b ∧ ∀ j, j < a.mem.length → j ≠ a.arr → b.mem[j]? = a.mem[j]?) ∨
    (a.ops grow os = .panic ∧ listOps os a.view = .panic) := by
  rcases tracks_ops grow os h with ⟨b, h1, h2, h3, h4⟩ | h
  · exact .inl ⟨b, h1, h2, h3, h4.rest⟩
  · exact .inr h

/-- Set, Insert, Append, Delete and Get with an index on an array do at most one of these operations, and one that does not panic -/
theorem C65_calls (E : Env) (xs : List V) (op : ArrOp) :
    ∃ os : List (SliceOp V), os.length ≤ 1 ∧ ∃ ys, listOps os xs = .ok ys ∧ op.run E (.arr xs) = .arr ys := by
  have one : ∀ (o : SliceOp V) (ys : List V), listOp o xs = .ok ys → op.run E (.arr xs) = .arr ys →
      ∃ os : List (SliceOp V), os.length ≤ 1 ∧ ∃ ys, listOps os xs = .ok ys ∧ op.run E (.arr xs) = .arr ys :=
    fun o ys h1 h2 => ⟨[o], by simp, ys, by simp [listOps, h1], h2⟩
  have none : op.run E (.arr xs) = .arr xs → ∃ os : List (SliceOp V), os.length ≤ 1 ∧ ∃ ys, listOps os xs = .ok ys ∧ op.run E (.arr xs) = .arr ys :=
    fun h => ⟨[], by simp, xs, rfl, h⟩
  have hlt : ∀ {z : Int} {i : Nat}, index xs.length z = some i → i < xs.length := by
    intro z i h
    unfold index at h
    split at h <;> (try split at h) <;> simp at h <;> omega
  have hr := run_arr E xs op
  cases op with
  | set z c =>
    simp only [ArrOp.list] at hr
    by_cases hu : c.uninit = true
    · exact none (by simpa [hu] using hr)
    · simp only [hu] at hr
      by_cases hz : z.toInt = xs.length
      · exact one (.append c) _ rfl (by simpa [hz] using hr)
      · cases hi : index xs.length z.toInt with
        | none => exact none (by simpa [hz, hi] using hr)
        | some i => exact one (.set i c) (xs.set i c) (by simp [listOp, hlt hi]) (by simpa [hz, hi] using hr)
  | insert after z c =>
    simp only [ArrOp.list] at hr
    cases hi : index xs.length z.toInt with
    | none => exact none (by simpa [hi] using hr)
    | some i =>
      have h1 := hlt hi
      have key : ∀ j, j ≤ xs.length → xs.insertIdx j c = xs.take j ++ c :: xs.drop j := by
        intro j hj
        exact insertIdx_eq hj
      cases after with
      | false => exact one (.insert i c) _ (by simp only [listOp]; rw [if_pos (by omega)]) (by rw [hr, hi]; simp [key i (by omega)])
      | true => exact one (.insert (i + 1) c) _ (by simp only [listOp]; rw [if_pos (by omega)]) (by rw [hr, hi]; simp [key (i + 1) (by omega)])
  | append beg c =>
    simp only [ArrOp.list] at hr
    cases beg with
    | false => exact one (.append c) _ rfl (by simpa using hr)
    | true => exact one (.insert 0 c) _ (by rw [listOp, if_pos (Nat.zero_le _)]) (by simpa using hr)
  | del z =>
    simp only [ArrOp.list] at hr
    cases hi : index xs.length z.toInt with
    | none => exact none (by simpa [hi] using hr)
    | some i => exact one (.delete i) _ (by rw [listOp, if_pos (hlt hi)]) (by simpa [hi] using hr)
  | get z => exact none hr

/-- A loop over ForRangeArr() is a loop over the elements that were there at the start, whatever its body does to the array -/
theorem C65_for_range [HasNil α] (grow : Nat → Nat) (cb : ArrCallback σ α) (s : σ) (a : ArrV α) (h : WFArr a) :
    outcome (forRangeArrMut grow cb s a) = snapshotLoop cb a.view.zipIdx s a.view := forRange_snapshot grow cb s a h

/-- RangeArray: proved for callbacks that append to the array, and change elements it has been called with, but do not remove or insert elements
or change later ones, unless they end the loop with it -/
theorem C65_partial [HasNil α] (grow : Nat → Nat) (cb : ArrCallback σ α) (hc : CalmCallback cb) (s : σ) (a : ArrV α) (h : WFArr a) :
    outcome (rangeArrayMut grow cb s a) = snapshotLoop cb a.view.zipIdx s a.view := range_snapshot grow cb s a h hc

/-- a callback that appends twice the element it is called with and stops after the third round -/
def doubler : ArrCallback Nat Nat := fun s i x _ => (s + x, [.append (2 * x), .set i 0], decide (i < 2))

example : CalmCallback doubler := by
  intro s i x xs
  refine .inr fun o ho => ?_
  simp only [doubler, List.mem_cons, List.not_mem_nil, or_false] at ho
  rcases ho with rfl | rfl
  · trivial
  · exact Nat.le_refl i

example : WFArr { mem := [[7], [1, 2, 3, 4]], arr := 1, len := 3 : ArrV Nat } := ⟨[1, 2, 3, 4], rfl, by decide⟩

/-- Deleting each element when the callback is called with it does not empty the array: every second element stays, for every array -/
theorem C65_removes_half [HasNil α] (grow : Nat → Nat) (a : ArrV α) (h : WFArr a) :
    outcome (rangeArrayMut grow deleter () a) = .ok ((), everySecond a.view) ∧ (everySecond a.view).length = a.view.length / 2 := by
  refine ⟨?_, everySecond_length _⟩
  have hl := view_length h
  have := rangeSlice_deleter grow a.view a.arr a.view.length 0 a (by omega) h rfl (by have := (wf_cells h).2.1; omega) (by simp [everySecond])
  rw [hl] at this
  exact this

/-- the callback that notes the elements it is called with, and in round 0 deletes the element at `pos` -/
def deleteOnce (pos : Nat) : ArrCallback (List Nat) Nat := fun s i x _ => (s ++ [x], (if i = 0 then [.delete pos] else []), true)

/-- Deleting the first element in the first round: the second element is never seen, the last one twice -/
theorem C65_skips : outcome (rangeArrayMut (fun n => 2 * n) (deleteOnce 0) [] { mem := [[1, 2, 3]], arr := 0, len := 3 }) = .ok ([1, 3, 3], [2, 3]) := rfl

/-- Deleting the last element in the first round: the callback is called with nil for it -/
theorem C65_nil_child : outcome (rangeArrayMut (fun n => 2 * n) (deleteOnce 1) [] { mem := [[1, 2]], arr := 0, len := 2 }) = .ok ([1, HasNil.nilv], [1]) := rfl

theorem C65_counterexample : ¬ C65_statement := by
  intro h
  have h1 := h (List Nat) Nat (fun n => 2 * n) (deleteOnce 0) [] { mem := [[1, 2, 3]], arr := 0, len := 3 } ⟨[1, 2, 3], rfl, by decide⟩
  rw [C65_skips] at h1
  have h2 : snapshotLoop (deleteOnce 0) (ArrV.view { mem := [[1, 2, 3]], arr := 0, len := 3 : ArrV Nat }).zipIdx []
      (ArrV.view { mem := [[1, 2, 3]], arr := 0, len := 3 : ArrV Nat }) = .ok ([1, 2, 3], [2, 3]) := rfl
  rw [h2] at h1
  cases h1

/-- RangeArray with any callback: it is called with 0, 1, 2 and so on, as often as the array was long at the start unless it stops the loop, also
when the array has become shorter or longer. If it never makes the array longer, it is called with the element that the array has at that index at
that moment, as long as there is one. (Beyond the end it is called with nil or with an element that is elsewhere by now: C65_skips, C65_nil_child.) -/
theorem C65_array_any_callback [HasNil α] (grow : Nat → Nat) (cb : ArrCallback σ α) (s : σ) (a : ArrV α) (r : (List (Nat × α × List α) × σ) × ArrV α) (h : WFArr a)
    (hr : rangeArrayMut grow (loggedArr cb) ([], s) a = .ok r) :
    r.1.1.map Prod.fst = List.range r.1.1.length ∧ r.1.1.length ≤ a.view.length ∧
    ((∀ s i x xs, (cb s i x xs).2.2 = true) → r.1.1.length = a.view.length) ∧
    ((∀ s i x xs, ∀ o ∈ (cb s i x xs).2.1, NotLonger o) → ∀ c ∈ r.1.1, c.1 < c.2.2.length → c.2.2[c.1]? = some c.2.1) := by
  obtain ⟨l, h1, h2, h3, h4, h5⟩ := rangeSlice_logged grow cb a.arr a.len a.len ([], s) a r (Nat.le_refl _) hr
  simp only [List.nil_append] at h1
  subst h1
  rw [view_length h]
  exact ⟨by rw [h3, Nat.sub_self, List.range_eq_range'], h2, h4, fun hc => h5 hc h rfl⟩

-- deleting the element it is called with: rounds 0 to 3, with 1, 3 and then behind the end of the array
example : rangeArrayMut (fun n => 2 * n) (loggedArr (deleter (α := Nat))) ([], ()) { mem := [[1, 2, 3, 4]], arr := 0, len := 4 } =
    .ok (([(0, 1, [1, 2, 3, 4]), (1, 3, [2, 3, 4]), (2, 4, [2, 4]), (3, 4, [2, 4])], ()), { mem := [[2, 4, 4, 4]], arr := 0, len := 2 }) := rfl

/-- RangeObjects: a callback that replaces or removes the member it is called with is called once for every member, with its contents, in some order,
and afterwards the object has exactly what the callback decided; for every order of iteration the runtime may choose. -/
theorem C65_range_objects (E : Env) (f : Bytes → V → Fate) (n : BitVec 32) (kvs : List Ent) (low : Low) (hn : (keys kvs).Nodup) (r : List Bytes × V)
    (hr : RangeObjectsMut E (rewriter f) [] (.obj n kvs low) r) :
    r.1.Perm (keys kvs) ∧ ∀ k, memberAt k r.2 = fated f k (memberAt k (.obj n kvs low)) := by
  have h := rangeMap_rewriter hr (midway_start ⟨n, kvs, low, rfl, hn⟩) rfl
  exact ⟨by simpa [entries] using h.seen, fun k => h.decided k (by simp)⟩

/-- the callback that removes `null` members and makes `null` of the booleans -/
def cleaner : Bytes → V → Fate
  | _, .null => .remove
  | _, .bool _ => .replace .null
  | _, _ => .keep

example (E : Env) : ∃ n kvs low, (keys kvs).Nodup ∧ RangeObjectsMut E (rewriter cleaner) [] (.obj n kvs low)
    ([[98], [97]], .obj (n + 1) [⟨[98], n + 1, .null⟩] none) := by
  refine ⟨2, [⟨[97], 1, .null⟩, ⟨[98], 2, .bool true⟩], none, by decide, ?_⟩
  refine .next _ _ [98] ⟨[98], 2, .bool true⟩ _ (.inl (by decide)) rfl rfl ?_
  refine .next _ _ [97] ⟨[97], 1, .null⟩ _ (.inl (.head _)) rfl rfl ?_
  exact .done _ _ rfl

/-- and the loop can always run to its end, whatever the callback does -/
theorem C65_range_ends (E : Env) (cb : ObjCallback σ) (s : σ) (n : BitVec 32) (kvs : List Ent) (low : Low) (hn : (keys kvs).Nodup) :
    ∃ r, RangeObjectsMut E cb s (.obj n kvs low) r :=
  rangeMap_exists _ _ _ (Nat.le_refl _) ⟨n, kvs, low, rfl, hn⟩ fun _ hk => ((midway_start (f := fun _ _ => .keep) ⟨n, kvs, low, rfl, hn⟩).same _ hk).2

/-- RangeObjectsBySetSequence: the same, and in the same order as if the callback changed nothing (see C16) -/
theorem C65_range_by_set (E : Env) (S : SortFn) (hS : GoodSort S) (f : Bytes → V → Fate) (n : BitVec 32) (kvs : List Ent) (low : Low) (hn : (keys kvs).Nodup) :
    rangeObjectsBySet S (.obj n kvs low) (some fun s k _ => (s ++ [k], true)) [] = .ok (rangeObjectsBySetMut E S (rewriter f) [] (.obj n kvs low)).1 ∧
    (rangeObjectsBySetMut E S (rewriter f) [] (.obj n kvs low)).1.Perm (keys kvs) ∧
    ∀ k, memberAt k (rangeObjectsBySetMut E S (rewriter f) [] (.obj n kvs low)).2 = fated f k (memberAt k (.obj n kvs low)) := by
  have hp := sortBy_perm hS (fun a b : Ent => decide (a.id ≤ b.id)) kvs
  have hm := midway_start (f := f) ⟨n, kvs, low, rfl, hn⟩
  obtain ⟨h1, h2⟩ := visitMut_rewriter (E := E) (f := f) (v0 := .obj n kvs low) (sortBy S (fun a b => decide (a.id ≤ b.id)) kvs) [] (.obj n kvs low)
    (fun e he => by
      show (lookup e.key kvs).map Ent.v = some e.v
      rw [lookup_mem hn (hp.mem_iff.1 he)]; rfl)
    ⟨hm.map, ((hp.map Ent.key).nodup_iff).2 hn, fun k hk => hm.same k ((hp.map Ent.key).mem_iff.1 hk), fun k hk => hm.decided k fun h => hk ((hp.map Ent.key).mem_iff.2 h),
      (hp.map Ent.key).trans hm.seen⟩
  refine ⟨?_, by have := h1.seen; rw [List.append_nil] at this; exact this, fun k => h1.decided k (by simp)⟩
  have key : ∀ (es : List Ent) (s : List Bytes), visit (fun s k _ => (s ++ [k], true)) (es.map fun e => (e.key, e.v)) s = s ++ es.map Ent.key := by
    intro es
    induction es with
    | nil => intro s; simp [visit]
    | cons e es ih => intro s; simp [visit, ih]
  show R.ok _ = R.ok _
  rw [key]
  exact congrArg R.ok h2.symm

/-- RangeObjects stops as soon as the callback says so: it is not called again, and what it has not seen stays as it was. -/
theorem C65_range_stops (E : Env) (f : Bytes → V → Fate) (go : Bytes → V → Bool) (n : BitVec 32) (kvs : List Ent) (low : Low) (hn : (keys kvs).Nodup)
    (r : List Bytes × V) (hr : RangeObjectsMut E (stopper f go) [] (.obj n kvs low) r) : StoppedBy f go (.obj n kvs low) r :=
  rangeMap_stopper hn hr (midway_start ⟨n, kvs, low, rfl, hn⟩) rfl (by simp)

/-- So does RangeObjectsBySetSequence, after the same members as if the callback changed nothing. -/
theorem C65_by_set_stops (E : Env) (S : SortFn) (hS : GoodSort S) (f : Bytes → V → Fate) (go : Bytes → V → Bool) (n : BitVec 32) (kvs : List Ent) (low : Low)
    (hn : (keys kvs).Nodup) :
    StoppedBy f go (.obj n kvs low) (rangeObjectsBySetMut E S (stopper f go) [] (.obj n kvs low)) ∧
    rangeObjectsBySet S (.obj n kvs low) (some fun s k c => (s ++ [k], go k c)) [] = .ok (rangeObjectsBySetMut E S (stopper f go) [] (.obj n kvs low)).1 := by
  have hp := sortBy_perm hS (fun a b : Ent => decide (a.id ≤ b.id)) kvs
  have hm := midway_start (f := f) ⟨n, kvs, low, rfl, hn⟩
  obtain ⟨h1, h2⟩ := visitMut_stopper (E := E) (f := f) (go := go) (v0 := .obj n kvs low) hn (sortBy S (fun a b => decide (a.id ≤ b.id)) kvs) [] (.obj n kvs low)
    (fun e he => by
      show (lookup e.key kvs).map Ent.v = some e.v
      rw [lookup_mem hn (hp.mem_iff.1 he)]; rfl)
    ⟨hm.map, ((hp.map Ent.key).nodup_iff).2 hn, fun k hk => hm.same k ((hp.map Ent.key).mem_iff.1 hk), fun k hk => hm.decided k fun h => hk ((hp.map Ent.key).mem_iff.2 h),
      (hp.map Ent.key).trans hm.seen⟩ (by simp)
  exact ⟨h1, congrArg R.ok h2.symm⟩

-- stops after the first null
example (E : Env) : rangeObjectsBySetMut E insertionSort (stopper cleaner fun _ c => !(isNull c == .ok true)) []
    (.obj 3 [⟨[97], 2, .null⟩, ⟨[98], 1, .bool true⟩, ⟨[99], 3, .null⟩] none) = ([[98], [97]], .obj 4 [⟨[98], 4, .null⟩, ⟨[99], 3, .null⟩] none) := rfl

/-- RangeObjects with any callback at all, for every order of iteration: it is only ever called with a member that the object has at that moment;
for a key that it never sets at most once, and then with the child that was there at the start (so a member that is removed before its turn comes
is not visited); for a key that it neither sets nor removes exactly once unless it stops the loop, and that member stays. -/
theorem C65_any_callback (E : Env) (cb : ObjCallback σ) (s : σ) (n : BitVec 32) (kvs : List Ent) (low : Low) (hn : (keys kvs).Nodup)
    (r : (List (Bytes × V × V) × σ) × V) (hr : RangeObjectsMut E (logged cb) ([], s) (.obj n kvs low) r) :
    (∀ x ∈ r.1.1, memberAt x.1 x.2.2 = some x.2.1) ∧
    (∀ k, NeverSets cb k → visitsOf k r.1.1 = [] ∨ ∃ c, visitsOf k r.1.1 = [c] ∧ memberAt k (.obj n kvs low) = some c) ∧
    ∀ k c, NeverSets cb k → NeverRemoves cb k → memberAt k (.obj n kvs low) = some c →
      memberAt k r.2 = some c ∧ ((∀ s j d v, (cb s j d v).2.2 = true) → visitsOf k r.1.1 = [c]) := by
  have hm : IsMap (.obj n kvs low) := ⟨n, kvs, low, rfl, hn⟩
  have once : ∀ k, NeverSets cb k → visitsOf k r.1.1 = [] ∨ ∃ c, visitsOf k r.1.1 = [c] ∧ memberAt k (.obj n kvs low) = some c := fun k hk =>
    rangeMap_once hk hr hm (by simp) (.inl ⟨rfl, fun _ => rfl⟩)
  refine ⟨rangeMap_seen hr (by simp), once, fun k c hs hd hc => ?_⟩
  have h := rangeMap_untouched hs hd hr hm (by simp) hc fun _ => by
    simp only [memberAt, entries] at hc
    cases hl : lookup k kvs with
    | none => rw [hl] at hc; cases hc
    | some e => exact lookup_isSome.1 (by simp [entries, hl])
  refine ⟨h.1, fun hgo => ?_⟩
  rcases once k hs with h0 | ⟨c', h1, h2⟩
  · exact absurd h0 (h.2 hgo)
  · rw [hc] at h2; cases h2; exact h1

/-- RangeObjectsBySetSequence with any callback that does not stop it: every member once, with the child that was there at the start, whatever the
callback does to the object, in the same order as if it did nothing. -/
theorem C65_by_set_any_callback (E : Env) (S : SortFn) (cb : ObjCallback σ) (hgo : ∀ s j d v, (cb s j d v).2.2 = true) (s : σ) (n : BitVec 32) (kvs : List Ent) (low : Low) :
    rangeObjectsBySet S (.obj n kvs low) (some fun l k c => (l ++ [(k, c)], true)) [] =
      .ok ((rangeObjectsBySetMut E S (logged cb) ([], s) (.obj n kvs low)).1.1.map fun x => (x.1, x.2.1)) := by
  have key : ∀ (es : List (Bytes × V)) (l : List (Bytes × V)), visit (fun l k c => (l ++ [(k, c)], true)) es l = l ++ es := by
    intro es
    induction es with
    | nil => intro l; simp [visit]
    | cons e es ih => intro l; simp [visit, ih]
  unfold rangeObjectsBySetMut
  rw [visitMut_logged hgo]
  show R.ok _ = R.ok _
  rw [key]
  rfl

-- the callback removes the other member: it is not called for it
example (E : Env) : ∃ r, RangeObjectsMut E (logged fun (_ : Unit) k _ _ => ((), [.del (if k = [97] then [98] else [97])], true)) ([], ())
    (.obj 2 [⟨[97], 1, .null⟩, ⟨[98], 2, .bool true⟩] none) r ∧ visitsOf [97] r.1.1 = [] ∧ visitsOf [98] r.1.1 = [.bool true] := by
  refine ⟨_, .next _ _ [98] ⟨[98], 2, .bool true⟩ _ (.inl (by decide)) rfl rfl (.done _ _ rfl), rfl, rfl⟩

/-- the member under a key is what Get returns -/
theorem C65_member (E : Env) (n : BitVec 32) (kvs : List Ent) (low : Low) (k : Bytes) :
    get E (.obj n kvs low) [.str k] = match memberAt k (.obj n kvs low) with | some c => .ok c | none => .err .notFound := by
  rw [get_key]
  simp only [memberAt, entries]
  cases lookup k kvs <;> rfl

end JV
