import Verif.Proofs.Threads
import Verif.Props.Heap
/-!
C43, C54, C55, C56: readers write nothing; goroutines that read at the same time, that use a lock, that set the default options.
-/
namespace JV
open Spec

variable {α β : Type}

/-! ### C43 -/

/-- The calls that read, and everything made of them: one call after another, depending on the results so far. -/
inductive Reads (E : Env) (S : SortFn) (D : DecFn) : {α : Type} → Act α → Prop
  | get (v : Ptr) (ps : List Param) : Reads E S D (aGet E false v ps)
  | look {α : Type} (v : Ptr) (f : Cell → R α) : Reads E S D (aLook v f)
  | marshal (n : Nat) (v : Ptr) (opts : List MOpt) : Reads E S D (aMarshal E S n v opts)
  | equal (n : Nat) (v w : Ptr) : Reads E S D (aEqual D n v w)
  | contains (n : Nat) (v w : Ptr) (path : List Param) : Reads E S D (aContains E D n v w path)
  | compare {α : Type} (v w : Ptr) (f : Cell → Cell → R α) : Reads E S D (aCompare v w f)
  | rangeObjects (order : List HEnt → List HEnt) (v : Ptr) (f : Bytes → Ptr → Act Bool) (h : ∀ k c, Reads E S D (f k c)) : Reads E S D (aRangeObjects order v f)
  | rangeArray (v : Ptr) (f : Nat → Ptr → Act Bool) (h : ∀ k c, Reads E S D (f k c)) : Reads E S D (aRangeArray v f)
  | ret {α : Type} (r : R α) : Reads E S D (.ret r)
  | andThen {α β : Type} (p : Act α) (f : R α → Act β) (h : Reads E S D p) (hf : ∀ r, Reads E S D (f r)) : Reads E S D (p.andThen f)

theorem reads_readOnly {E : Env} {S : SortFn} {D : DecFn} {p : Act α} (h : Reads E S D p) : ReadOnly p := by
  induction h with
  | get v ps => exact readOnly_get E v ps
  | look v f => exact readOnly_look v f
  | marshal n v opts => exact readOnly_marshal E S n v opts
  | equal n v w => exact readOnly_equal D n v w
  | contains n v w path => exact readOnly_contains E D n v w path
  | compare v w f => exact readOnly_compare v w f
  | rangeObjects order v f _ ih => exact readOnly_rangeObjects order v ih
  | rangeArray v f _ ih => exact readOnly_rangeArray v ih
  | ret r => exact True.intro
  | andThen p f _ _ h1 h2 => exact readOnly_andThen h1 h2

/-- Get without Caseless, Marshal, Equal, Contains, the comparisons, the Range functions and everything made of them leave the whole memory as it
was: values, lower case indexes and default options. -/
theorem C43_readers (E : Env) (S : SortFn) (D : DecFn) (p : Act α) (m : Mem) (h : Reads E S D p) : (p.run m).1 = m :=
  readOnly_run m (reads_readOnly h)

/-- these are the functions of the heap model: the reads and writes of Get, caseless or not, have together the effect described there -/
theorem C43_get_model (E : Env) (cl : Bool) (v : Ptr) (ps : List Param) (m : Mem) :
    ((aGet E cl v ps).run m).1.heap = (hget E cl m.heap v ps).1 ∧ ((aGet E cl v ps).run m).2 = (hget E cl m.heap v ps).2 := by
  rw [run_get]; exact ⟨rfl, rfl⟩

/-- ... and the others give the answers of the functions on trees: when following `v` gives the tree `t` and following `w` the tree `u`, Marshal gives
the text of `t` with the default options of that moment, Equal compares `t` with `u`, Contains looks for `u` in `t`; the functions that look at one
or two values get what is there. -/
theorem C43_answers (E : Env) (S : SortFn) (D : DecFn) (m : Mem) (n : Nat) (v w : Ptr) (t u : V) (hv : hread n m.plain v = .ok t) (hw : hread n m.plain w = .ok u) :
    (∀ opts, ((aMarshal E S n v opts).run m).2 = marshal E S m.options t opts) ∧
    ((aEqual D n v w).run m).2 = .ok (equal D t u) ∧
    (∀ path, ((aContains E D n v w path).run m).2 = containsAt E D t u path) ∧
    (∀ {α : Type} (f : Cell → R α) a c, v = some a → m.node a = some c → ((aLook v f).run m).2 = f c) ∧
    (∀ {α : Type} (f : Cell → Cell → R α) a b c d, v = some a → w = some b → m.node a = some c → m.node b = some d → ((aCompare v w f).run m).2 = f c d) := by
  refine ⟨fun opts => ?_, ?_, fun path => ?_, ?_, ?_⟩
  · rw [run_marshal]; simp only [hmarshal, hv]
  · rw [run_equal, hv, hw]; rfl
  · unfold aContains
    rw [run_onOk (run_read m n v) fun t => run_onOk_ret (f := fun u => containsAt E D t u path) (run_read m n w), hv, hw]; rfl
  · intro α f a c hva hc
    subst hva
    simp only [aLook, Act.run, hc]
  · intro α f a b c d hva hwb hc hd
    subst hva; subst hwb
    simp only [aCompare, aLook, Act.onOk, Act.andThen, Act.run, hc, hd]

-- [null] and null
example : let m : Mem := { heap := [.null, .arr [some 0]], options := {} }
    hread 2 m.plain (some 1) = .ok (.arr [.null]) ∧ hread 2 m.plain (some 0) = .ok .null := ⟨rfl, rfl⟩

/-- RangeArray with a callback that reads visits the elements in order: it ends at the first one for which the callback does not return true, and
leaves none out. -/
theorem C43_rangeArray (E : Env) (S : SortFn) (D : DecFn) (m : Mem) (a : Nat) (xs : List Ptr) (f : Nat → Ptr → Act Bool) (hf : ∀ k c, Reads E S D (f k c))
    (ha : m.node a = some (.arr xs)) :
    ((∀ (i : Nat) c, xs[i]? = some c → ((f i c).run m).2 = .ok true) → ((aRangeArray (some a) f).run m).2 = .ok ()) ∧
    ∀ (k : Nat) c, xs[k]? = some c → ((f k c).run m).2 ≠ .ok true → (∀ (i : Nat) c, i < k → xs[i]? = some c → ((f i c).run m).2 = .ok true) →
      ((aRangeArray (some a) f).run m).2 = loopEnd ((f k c).run m).2 := by
  rw [run_rangeArray ha (fun k c => C43_readers E S D _ m (hf k c))]
  have hz : ∀ (i : Nat), ((List.range xs.length).zip xs)[i]? = xs[i]?.map fun c => (i, c) := by
    intro i
    by_cases hi : i < xs.length
    · simp [List.getElem?_eq_getElem, hi]
    · simp [List.getElem?_eq_none, Nat.le_of_not_lt hi]
  generalize (List.range xs.length).zip xs = l at hz
  refine ⟨fun h => loopOn_all fun x hx => ?_, fun k c hk hn hb => ?_⟩
  · obtain ⟨i, hi, rfl⟩ := List.mem_iff_getElem.1 hx
    have h1 := hz i
    rw [List.getElem?_eq_getElem hi] at h1
    cases hc : xs[i]? with
    | none => rw [hc] at h1; cases h1
    | some c =>
      rw [hc] at h1
      rw [Option.some.inj h1]
      exact h i c hc
  · have h1 := hz k
    rw [hk] at h1
    obtain ⟨hlt, h2⟩ := List.getElem?_eq_some_iff.1 h1
    dsimp only at h2
    have h3 : l = l.take k ++ (k, c) :: l.drop (k + 1) := by
      rw [← h2, ← List.drop_eq_getElem_cons hlt, List.take_append_drop]
    rw [h3]
    refine loopOn_stop (fun x hx => ?_) hn
    obtain ⟨i, hi, rfl⟩ := List.mem_iff_getElem.1 hx
    have hik : i < k := by simp only [List.length_take] at hi; omega
    have h4 := hz i
    rw [List.getElem?_eq_getElem (by omega)] at h4
    cases hc : xs[i]? with
    | none => rw [hc] at h4; cases h4
    | some c =>
      rw [hc] at h4
      rw [List.getElem_take, Option.some.inj h4]
      exact hb i c hik hc

/-- RangeObjects visits the members in some order, and ends in the same way. -/
theorem C43_rangeObjects (E : Env) (S : SortFn) (D : DecFn) (m : Mem) (a n : Nat) (kvs : List HEnt) (low : Low) (order : List HEnt → List HEnt)
    (f : Bytes → Ptr → Act Bool) (hf : ∀ k c, Reads E S D (f k c)) (ha : m.node a = some (.obj n kvs low)) (ho : ∀ l, (order l).Perm l) :
    ((∀ e ∈ kvs, ((f e.key e.v).run m).2 = .ok true) → ((aRangeObjects order (some a) f).run m).2 = .ok ()) ∧
    ∃ l, l.Perm kvs ∧ ∀ l1 e l2, l = l1 ++ e :: l2 → ((f e.key e.v).run m).2 ≠ .ok true → (∀ e ∈ l1, ((f e.key e.v).run m).2 = .ok true) →
      ((aRangeObjects order (some a) f).run m).2 = loopEnd ((f e.key e.v).run m).2 := by
  rw [run_rangeObjects ha (fun k c => C43_readers E S D _ m (hf k c))]
  refine ⟨fun h => loopOn_all fun x hx => ?_, order kvs, ho kvs, fun l1 e l2 hl hn hb => ?_⟩
  · obtain ⟨e, he, rfl⟩ := List.mem_map.1 hx
    exact h e ((ho kvs).mem_iff.1 he)
  · rw [hl, List.map_append, List.map_cons]
    refine loopOn_stop (fun x hx => ?_) hn
    obtain ⟨e, he, rfl⟩ := List.mem_map.1 hx
    exact hb e he

-- a callback that reads each element of [null, true, null] and stops at the boolean
example : let m : Mem := { heap := [.null, .bool true, .arr [some 0, some 1, some 0]], options := {} }
    let f : Nat → Ptr → Act Bool := fun _ c => aLook c fun | .null => .ok true | _ => .err .other
    (∀ k c, Reads sampleEnv insertionSort newFromString (f k c)) ∧ ((aRangeArray (some 2) f).run m).2 = .err .other :=
  ⟨fun _ _ => .look _ _, (C43_rangeArray sampleEnv insertionSort newFromString { heap := [.null, .bool true, .arr [some 0, some 1, some 0]], options := {} } 2
    [some 0, some 1, some 0] _ (fun _ _ => .look _ _) rfl).2 1 (some 1) rfl (by intro h; cases h) (by
      intro i c hi hc
      cases (show i = 0 by omega)
      cases hc
      rfl)⟩

/-! ### C54 -/

/-- Goroutines that only read: whatever they read, however they are interleaved, there is no data race, nothing changes, and each one that
finishes has the result it would have alone. -/
theorem C54_readers (E : Env) (S : SortFn) (D : DecFn) (w w' : World α) (hr : ∀ p ∈ w.threads, Reads E S D p) (h : World.Steps w w') :
    ¬ w'.Race ∧ w'.mem = w.mem ∧ ∀ (i : Nat) p r, w.threads[i]? = some p → w'.threads[i]? = some (.ret r) → r = (p.run w.mem).2 := by
  obtain ⟨h1, h2, h3⟩ := world_readers h fun p hp => reads_readOnly (hr p hp)
  refine ⟨no_race_of_readers fun q hq => ?_, h1, fun i p r hp hq => ?_⟩
  · obtain ⟨i, hi, rfl⟩ := List.mem_iff_getElem.1 hq
    obtain ⟨q', hq', hro, -⟩ := h3 i _ (List.getElem?_eq_getElem (show i < w.threads.length by omega))
    rw [List.getElem?_eq_getElem hi] at hq'
    cases hq'
    exact hro
  · obtain ⟨q, hq', -, hrun⟩ := h3 i p hp
    rw [hq] at hq'
    cases hq'
    exact congrArg Prod.snd hrun

/-- in particular Marshal -/
theorem C54_marshal (E : Env) (S : SortFn) (D : DecFn) (w w' : World (Bytes × Option Err)) (hr : ∀ p ∈ w.threads, Reads E S D p) (h : World.Steps w w')
    (i n : Nat) (v : Ptr) (opts : List MOpt) (r : R (Bytes × Option Err)) (hi : w.threads[i]? = some (aMarshal E S n v opts)) (hd : w'.threads[i]? = some (.ret r)) :
    r = hmarshal E S w.mem.options n w.mem.plain v opts := by
  rw [(C54_readers E S D w w' hr h).2.2 i _ r hi hd, run_marshal]

/-- readers and Caseless().Get together -/
def C54_caseless_statement : Prop := ∀ (E : Env) (m : Mem) (reads : List (Ptr × List Param)) (w' : World Ptr),
  World.Steps { mem := m, threads := reads.map fun x => aGet E true x.1 x.2 } w' → ¬ w'.Race

/-- the object {"Ab": null} at address 1 -/
def sharedObj : Mem := { heap := [.null, .obj 1 [⟨asc "Ab", 1, some 0⟩] none], options := {} }

/-- As documented (get.go:405-406), Caseless needs the write lock: two goroutines that call Caseless().Get on the same object race. -/
theorem C54_caseless_counterexample : ¬ C54_caseless_statement := by
  intro h
  refine h sampleEnv sharedObj [(some 1, [.str (asc "aB")]), (some 1, [.str (asc "aB")])]
    { mem := sharedObj, threads := [.writeIndex 1 (some []) (aFillIndex sampleEnv 1 [⟨asc "Ab", 1, some 0⟩] (.readIndex 1 fun l =>
        match lowGet (sampleEnv.toLower (asc "aB")) (l.getD []) with
        | none => .ret (.err .notFound)
        | some ks => match firstPresent (keysOf [⟨asc "Ab", 1, some 0⟩]) ks with
          | none => .ret (.err .notFound)
          | some k => match hlookup k [⟨asc "Ab", 1, some 0⟩] with
            | some e => .ret (.ok e.v)
            | none => .ret .panic)), aInitCaseless sampleEnv 1 [⟨asc "Ab", 1, some 0⟩] (.readIndex 1 fun l =>
        match lowGet (sampleEnv.toLower (asc "aB")) (l.getD []) with
        | none => .ret (.err .notFound)
        | some ks => match firstPresent (keysOf [⟨asc "Ab", 1, some 0⟩]) ks with
          | none => .ret (.err .notFound)
          | some k => match hlookup k [⟨asc "Ab", 1, some 0⟩] with
            | some e => .ret (.ok e.v)
            | none => .ret .panic)] } ?_ ?_
  · exact (((World.Steps.refl _).snoc (.go _ 0 _ _ _ rfl rfl)).snoc (.go _ 1 _ _ _ rfl rfl)).snoc (.go _ 0 _ _ _ rfl rfl)
  · exact ⟨0, 1, _, _, _, _, by decide, rfl, rfl, rfl, rfl, rfl, .inl rfl⟩

/-- And it matters: the index is filled key by key in the open, and a second reader that comes too early finds nothing. Alone it finds the member. -/
theorem C54_caseless_wrong_result : ∃ w' : World Ptr, World.Steps { mem := sharedObj, threads := [aGet sampleEnv true (some 1) [.str (asc "aB")], aGet sampleEnv true (some 1) [.str (asc "AB")]] } w' ∧
    w'.threads[1]? = some (.ret (.err .notFound)) ∧ ((aGet sampleEnv true (some 1) [.str (asc "AB")]).run sharedObj).2 = .ok (some 0) := by
  let w : World Ptr := { mem := sharedObj, threads := [aGet sampleEnv true (some 1) [.str (asc "aB")], aGet sampleEnv true (some 1) [.str (asc "AB")]] }
  have hr : ((w.exec [0, 0, 0, 1, 1, 1]).bind fun w' => w'.result 1) = some (.err .notFound) := by decide +kernel
  cases he : w.exec [0, 0, 0, 1, 1, 1] with
  | none => rw [he] at hr; cases hr
  | some w' =>
    rw [he] at hr
    exact ⟨w', exec_steps _ (.refl _) he, result_some hr, by decide +kernel⟩

-- three goroutines that read the same object: a plain Get, an iteration and a Marshal (their results made bytes)
example : let p : Act Bytes := (aGet sampleEnv false (some 1) [.str (asc "Ab")]).onOk fun c => (aMarshal sampleEnv insertionSort 5 c []).onOk fun x => .ret (.ok x.1)
    let q : Act Bytes := (aMarshal sampleEnv insertionSort 5 (some 1) []).onOk fun x => .ret (.ok x.1)
    ((World.exec { mem := sharedObj, threads := [p, q] } [0, 1, 0, 1, 0, 1]).map fun w => (w.result 0, w.result 1)) =
      some (some (.ok (asc "null")), some (.ok (asc "{\"Ab\":null}"))) := by decide +kernel

/-! ### C55 -/

/-- A sync.RWMutex, used as documented: reading under the read lock, everything else (Set and its kin, Caseless, whatever code) under the write
lock. For any number of goroutines, which may choose what to do next by the results so far, and any interleaving: there is no data race, and
whenever nobody holds the lock, the memory and what every goroutine is about to do are those of a serial execution, in which the critical
sections ran one at a time from beginning to end. -/
theorem C55_rwmutex (m : Mem) (cs : List (Client α)) (s : Locked α) (hd : ∀ c ∈ cs, Disciplined c)
    (h : Locked.Steps { mem := m, places := cs.map .outside } s) :
    ¬ s.Race ∧ ∀ cs', s.places = cs'.map .outside → Serial m cs s.mem cs' := by
  obtain ⟨m', cs1, h1, h2⟩ := behaves_steps rfl h hd
  refine ⟨behaves_no_race h2, fun cs' hcs => ?_⟩
  have hno : ∀ (i : Nat) w p k q, s.places[i]? = some (.inside w p k q) → False := by
    intro i w p k q hi
    rw [hcs, List.getElem?_map] at hi
    cases hc : cs'[i]? with
    | none => rw [hc] at hi; cases hi
    | some c => rw [hc] at hi; cases hi
  have he : cs' = cs1 := by
    apply List.ext_getElem?
    intro i
    cases hc : cs'[i]? with
    | some c => exact (h2.outside i c (by rw [hcs, List.getElem?_map, hc]; rfl)).symm
    | none =>
      have h3 : cs1.length = cs'.length := by rw [h2.len, hcs, List.length_map]
      rw [List.getElem?_eq_none_iff] at hc
      exact (List.getElem?_eq_none_iff.2 (by omega)).symm
  subst he
  rw [h2.same fun i w p k q hi => (hno i w p k q hi).elim]
  exact h1

/-- A finished read section has a result that the value of some moment gives, and a goroutine in the middle of a read section will get the result for
the memory as it is now. -/
theorem C55_read_section (m : Mem) (cs : List (Client α)) (s : Locked α) (hd : ∀ c ∈ cs, Disciplined c)
    (h : Locked.Steps { mem := m, places := cs.map .outside } s) (i : Nat) (p q : Act α) (k : R α → Client α) (hi : s.places[i]? = some (.inside false p k q)) :
    q.run s.mem = p.run s.mem := by
  obtain ⟨m', cs1, h1, h2⟩ := behaves_steps rfl h hd
  have hm : s.mem = m' := by
    refine h2.same fun j w p' k' q' hj => ?_
    by_cases hij : i = j
    · subst hij; rw [hi] at hj; cases hj; rfl
    · exact (h2.alone i j _ _ _ _ _ _ _ _ hij hi hj).2
  rw [(h2.inside i _ _ _ _ hi).2.1, hm]

/-- a goroutine that runs these critical sections one after the other -/
def sections : List (Bool × Act α) → Client α
  | [] => .stop
  | (w, p) :: l => .locked w p fun _ => sections l

theorem sections_disciplined {E : Env} {S : SortFn} {D : DecFn} : ∀ {l : List (Bool × Act α)}, (∀ x ∈ l, x.1 = false → Reads E S D x.2) → Disciplined (sections l)
  | [], _ => True.intro
  | (w, p) :: l, h => ⟨fun hw => reads_readOnly (h (w, p) (by simp) hw), fun _ => sections_disciplined fun x hx => h x (by simp [hx])⟩

-- two goroutines: a caseless Get under the write lock, then a plain one under the read lock; the other one the other way round
example : Disciplined (sections [(true, aGet sampleEnv true (some 1) [.str (asc "aB")]), (false, aGet sampleEnv false (some 1) [.str (asc "Ab")])]) :=
  sections_disciplined (E := sampleEnv) (S := insertionSort) (D := fun _ => none) fun x hx hw => by
    simp only [List.mem_cons, List.not_mem_nil, or_false] at hx
    rcases hx with rfl | rfl
    · cases hw
    · exact .get _ _

/-- without the lock discipline, that is, with Caseless under the read lock, there are races -/
theorem C55_discipline_needed : ∃ (m : Mem) (cs : List (Client Ptr)) (s : Locked Ptr), (∀ c ∈ cs, ∃ p, c = .locked false p fun _ => .stop) ∧
    Locked.Steps { mem := m, places := cs.map .outside } s ∧ s.Race := by
  let p : Act Ptr := aGet sampleEnv true (some 1) [.str (asc "aB")]
  let c : Client Ptr := .locked false p fun _ => .stop
  refine ⟨sharedObj, [c, c], _, ?_, ((((((Locked.Steps.refl _).snoc (.enter _ 0 false p (fun _ => .stop) rfl ?_)).snoc (.enter _ 1 false p (fun _ => .stop) rfl ?_)).snoc
    (.work _ 0 false p (fun _ => .stop) p _ _ rfl rfl)).snoc (.work _ 1 false p (fun _ => .stop) p _ _ rfl rfl)).snoc
    (.work _ 0 false p (fun _ => .stop) _ _ _ rfl rfl)), ?_⟩
  · intro x hx
    simp only [List.mem_cons, List.not_mem_nil, or_false] at hx
    rcases hx with rfl | rfl <;> exact ⟨p, rfl⟩
  · intro w' p' k' q' h
    simp [c] at h
  · intro w' p' k' q' h
    simp [c] at h
    exact ⟨rfl, h.1⟩
  · exact ⟨0, 1, _, _, _, _, by decide, rfl, rfl, rfl, rfl, rfl, .inl rfl⟩

/-! ### C56 -/

/-- C56 as stated: goroutines that marshal and that set the default options do not race. False: see `C56_counterexample`. -/
def C56_statement : Prop := ∀ (E : Env) (S : SortFn) (n : Nat) (w w' : World (Bytes × Option Err)),
  (∀ p ∈ w.threads, (∃ v opts, p = aMarshal E S n v opts) ∨ ∃ opts, p = (aSetDefault opts).onOk fun _ => .ret (.ok ([], none))) →
  World.Steps w w' → ¬ w'.Race

/-- SetDefaultMarshalOptions stores a pointer that Marshal loads, with nothing to order the two accesses. -/
theorem C56_counterexample : ¬ C56_statement := by
  intro h
  refine h sampleEnv insertionSort 5 { mem := sharedObj, threads := [aMarshal sampleEnv insertionSort 5 (some 1) [], (aSetDefault []).onOk fun _ => .ret (.ok ([], none))] }
    _ ?_ (.refl _) ?_
  · intro p hp
    simp only [List.mem_cons, List.not_mem_nil, or_false] at hp
    rcases hp with rfl | rfl
    · exact .inl ⟨_, _, rfl⟩
    · exact .inr ⟨_, rfl⟩
  · exact ⟨0, 1, _, _, _, _, by decide, rfl, rfl, rfl, rfl, rfl, .inr rfl⟩

/-- What remains if the load and the store of that one word happen to be atomic, as they are on the usual machines: while goroutines set default
options and nobody changes a value, every Marshal that ends has used one and the same set of default options throughout, namely the first
one or one that some goroutine set. -/
theorem C56_partial (E : Env) (S : SortFn) (w w' : World (Bytes × Option Err)) (hk : ∀ p ∈ w.threads, KeepsValues p) (h : World.Steps w w')
    (i n : Nat) (v : Ptr) (opts : List MOpt) (r : R (Bytes × Option Err)) (hi : w.threads[i]? = some (aMarshal E S n v opts)) (hr : w'.threads[i]? = some (.ret r)) :
    ∃ d, (d = w.mem.options ∨ ∃ p ∈ w.threads, MaySet d p) ∧ r = hmarshal E S d n w.mem.plain v opts := by
  obtain ⟨-, -, -, q, hq, hc⟩ := world_options h hk hi fun d => noOptions_onOk (noOptions_read n v) fun _ => True.intro
  rw [hr] at hq
  cases hq
  rcases hc with hc | ⟨d, hd, -, hrun⟩
  · cases hc
  · refine ⟨d, hd, ?_⟩
    have h1 : ((aMarshal E S n v opts).run { w.mem with options := d }).2 = hmarshal E S d n w.mem.plain v opts := by
      rw [run_marshal]; rfl
    rw [← h1]
    have hno : NoOptions ((aRead n v).onOk fun t => Act.ret (marshal E S d t opts)) := noOptions_onOk (noOptions_read n v) fun _ => True.intro
    exact Eq.trans hrun (noOptions_run (m := { w.mem with options := d }) hno rfl)

/-- what SetDefaultMarshalOptions may set -/
theorem maySet_setDefault {d : Opt} {opts : List MOpt} {f : Unit → R β} : MaySet d ((aSetDefault opts).onOk fun a => .ret (f a)) ↔ d = setDefault opts :=
  ⟨fun h => h.elim (fun h => h.symm) fun h => h.elim, fun h => .inl h.symm⟩

-- Marshal and SetDefaultMarshalOptions(OptOmitNull(true)), in both orders
example : let w : World Bytes := { mem := sharedObj, threads := [(aMarshal sampleEnv insertionSort 5 (some 1) []).onOk fun x => .ret (.ok x.1), (aSetDefault [.omitNull true]).onOk fun _ => .ret (.ok [])] }
    ((w.exec [0, 1, 0, 0]).bind fun w => w.result 0) = some (.ok (asc "{\"Ab\":null}")) ∧
    ((w.exec [1, 0, 0, 0]).bind fun w => w.result 0) = some (.ok (asc "{}")) := by decide +kernel

end JV
