import Verif.Model.Heap
import Verif.Model.Compare
/-!
Goroutines that work on the same values. A piece of Go code is a program of reads and writes of shared memory; between two of them another
goroutine may run. The shared memory consists of the `V` objects of Model/Heap, each in two parts that are read and written separately
(the lower case index, and all the rest), and of the pointer to the default options. Everything else is local to one call: the buffers,
the options after combineOptions (option.go:227-236 copies them), the slices that are sorted. The words of the size predictor are accessed
with sync/atomic only and are the subject of Model/Predict.
-/
namespace JV

/-- memory that goroutines share. `node a`: the `V` at address `a` without its lower case index; `index a`: `children.lowerCaseKeys` of that
`V`, the field and the map; `options`: `internal.defaultMarshalOption` -/
inductive Loc where
  | node (a : Nat)
  | index (a : Nat)
  | options
deriving DecidableEq

/-- code that ends with a result of type `α` -/
inductive Act (α : Type) : Type where
  | ret (r : R α)
  | read (a : Nat) (k : Option Cell → Act α)
  | readIndex (a : Nat) (k : Low → Act α)
  | readOptions (k : Opt → Act α)
  | write (a : Nat) (c : Cell) (k : Act α)
  | writeIndex (a : Nat) (l : Low) (k : Act α)
  | writeOptions (o : Opt) (k : Act α)
  | alloc (c : Cell) (k : Nat → Act α)

/-- one piece of code after the other; the second one sees the error or the panic of the first -/
def Act.andThen {α β : Type} : Act α → (R α → Act β) → Act β
  | .ret r, f => f r
  | .read a k, f => .read a fun c => (k c).andThen f
  | .readIndex a k, f => .readIndex a fun l => (k l).andThen f
  | .readOptions k, f => .readOptions fun o => (k o).andThen f
  | .write a c k, f => .write a c (k.andThen f)
  | .writeIndex a l k, f => .writeIndex a l (k.andThen f)
  | .writeOptions o k, f => .writeOptions o (k.andThen f)
  | .alloc c k, f => .alloc c fun a => (k a).andThen f

/-- go on if there is a value, give an error or a panic to the caller -/
def Act.onOk {α β : Type} (p : Act α) (f : α → Act β) : Act β :=
  p.andThen fun
    | .ok a => f a
    | .err e => .ret (.err e)
    | .panic => .ret .panic
    | .diverge => .ret .diverge

/-- the shared memory -/
structure Mem where
  heap : Heap
  options : Opt

/-- a `V` without its lower case index -/
def Cell.plain : Cell → Cell
  | .obj n kvs _ => .obj n kvs none
  | c => c

/-- its lower case index -/
def Cell.index : Cell → Low
  | .obj _ _ low => low
  | _ => none

/-- a `V` with this lower case index; only objects have one -/
def Cell.withIndex (l : Low) : Cell → Cell
  | .obj n kvs _ => .obj n kvs l
  | c => c

def Mem.node (m : Mem) (a : Nat) : Option Cell := (m.heap[a]?).map Cell.plain
def Mem.index (m : Mem) (a : Nat) : Low := match m.heap[a]? with | some c => c.index | none => none
def Mem.setNode (m : Mem) (a : Nat) (c : Cell) : Mem := { m with heap := m.heap.set a (c.withIndex (m.index a)) }
def Mem.setIndex (m : Mem) (a : Nat) (l : Low) : Mem := match m.heap[a]? with
  | some c => { m with heap := m.heap.set a (c.withIndex l) }
  | none => m

/-- one access of the memory, or one allocation -/
def Act.step {α : Type} (m : Mem) : Act α → Option (Mem × Act α)
  | .ret _ => none
  | .read a k => some (m, k (m.node a))
  | .readIndex a k => some (m, k (m.index a))
  | .readOptions k => some (m, k m.options)
  | .write a c k => some (m.setNode a c, k)
  | .writeIndex a l k => some (m.setIndex a l, k)
  | .writeOptions o k => some ({ m with options := o }, k)
  | .alloc c k => some ({ m with heap := m.heap ++ [c] }, k m.heap.length)

/-- the code alone, from beginning to end -/
def Act.run {α : Type} : Mem → Act α → Mem × R α
  | m, .ret r => (m, r)
  | m, .read a k => (k (m.node a)).run m
  | m, .readIndex a k => (k (m.index a)).run m
  | m, .readOptions k => (k m.options).run m
  | m, .write a c k => k.run (m.setNode a c)
  | m, .writeIndex a l k => k.run (m.setIndex a l)
  | m, .writeOptions o k => k.run { m with options := o }
  | m, .alloc c k => (k m.heap.length).run { m with heap := m.heap ++ [c] }
termination_by structural _ p => p

/-- the next access: where, and whether it is a write. A new object is not shared yet. -/
def Act.access {α : Type} : Act α → Option (Loc × Bool)
  | .ret _ => none
  | .read a _ => some (.node a, false)
  | .readIndex a _ => some (.index a, false)
  | .readOptions _ => some (.options, false)
  | .write a _ _ => some (.node a, true)
  | .writeIndex a _ _ => some (.index a, true)
  | .writeOptions _ _ => some (.options, true)
  | .alloc _ _ => none

/-! ## the functions of the library as such code -/

/-- get.go:64-67: the keys are added to the new index one by one (jsonvalue.go:165-177) -/
def aFillIndex {α : Type} (E : Env) (a : Nat) : List HEnt → Act α → Act α
  | [], k => k
  | e :: es, k => .readIndex a fun l => .writeIndex a (addCaseless E l e.key) (aFillIndex E a es k)

/-- get.go:60-68 `initCaselessStorage` -/
def aInitCaseless {α : Type} (E : Env) (a : Nat) (kvs : List HEnt) (k : Act α) : Act α :=
  .readIndex a fun
    | some _ => k
    | none => .writeIndex a (some []) (aFillIndex E a kvs k)

/-- get.go:70-96 `getFromObjectChildren` -/
def aFind (E : Env) (cl : Bool) (a : Nat) (kvs : List HEnt) (key : Bytes) : Act Ptr :=
  match hlookup key kvs with
  | some e => .ret (.ok e.v)
  | none =>
    if !cl then .ret (.err .notFound)
    else aInitCaseless E a kvs <| .readIndex a fun l =>
      match lowGet (E.toLower key) (l.getD []) with
      | none => .ret (.err .notFound)
      | some ks => match firstPresent (keysOf kvs) ks with
        | none => .ret (.err .notFound)
        | some k => match hlookup k kvs with
          | some e => .ret (.ok e.v)
          | none => .ret .panic

/-- get.go:98-133 `getInCurrentValue`, see `hlocate` -/
def aLocate (E : Env) (cl : Bool) (v : Ptr) (p : Param) : Act Ptr :=
  match v with
  | none => .ret .panic
  | some a => .read a fun
    | none => .ret .panic
    | some (.arr xs) =>
      match anyToInt p with
      | .ok pos =>
        let pos := posForRead xs.length pos
        if pos < 0 then .ret (.err .outOfRange)
        else match xs[pos.toNat]? with
          | some c => .ret (.ok c)
          | none => .ret .panic
      | .err e => .ret (.err e)
      | _ => .ret .panic
    | some (.obj _ kvs _) =>
      match anyToString p with
      | .ok key => aFind E cl a kvs key
      | .err e => .ret (.err e)
      | _ => .ret .panic
    | some _ => .ret (.err .other)

mutual
/-- get.go:42-58 `get` with a single parameter, see `hget1` -/
def aGet1 (E : Env) (cl : Bool) (v : Ptr) : Param → Act Ptr
  | .slice qs => if qs.isEmpty then aLocate E cl v .nil else aGet E cl v qs
  | p => aLocate E cl v p
termination_by structural p => p
/-- get.go:42-58 `get`, see `hget` -/
def aGet (E : Env) (cl : Bool) (v : Ptr) : List Param → Act Ptr
  | [] => .ret .panic
  | p :: rest =>
    if rest.isEmpty then aGet1 E cl v p
    else if p.isSlice then .ret (.err .multipleParam)
    else (aLocate E cl v p).onOk fun c => aGet E cl c rest
termination_by structural ps => ps
end

/-- the `V` behind a pointer, for the functions that look at one value only: Len, ValueType, IsXxx, Int, Float64, String, Bool, Bytes, ForRangeArr,
ForRangeObj, and the loops of RangeArray and RangeObjects; `f` is what they do with it -/
def aLook {α : Type} (v : Ptr) (f : Cell → R α) : Act α :=
  match v with
  | none => .ret .panic
  | some a => .read a fun
    | none => .ret .panic
    | some c => .ret (f c)

/-- visit the children one after the other, see `hreadList` -/
def aReadList (f : Ptr → Act V) : List Ptr → Act (List V)
  | [] => .ret (.ok [])
  | x :: xs => (f x).onOk fun v => (aReadList f xs).onOk fun vs => .ret (.ok (v :: vs))

/-- the walk over a whole value, see `hread`: Marshal, Equal, Contains and deepCopy visit each child by a recursive call -/
def aRead : Nat → Ptr → Act V
  | 0, _ => .ret .diverge
  | fuel + 1, v =>
    match v with
    | none => .ret (.ok .nilp)
    | some a => .read a fun
      | none => .ret .panic
      | some .notExist => .ret (.ok .notExist)
      | some (.str s) => .ret (.ok (.str s))
      | some (.num src n) => .ret (.ok (.num src n))
      | some (.bool b) => .ret (.ok (.bool b))
      | some .null => .ret (.ok .null)
      | some (.arr xs) => (aReadList (aRead fuel) xs).onOk fun vs => .ret (.ok (.arr vs))
      | some (.obj n kvs low) => (aReadList (aRead fuel) (kvs.map HEnt.v)).onOk fun vs => .ret (.ok (.obj n (entsOf kvs vs) low))

/-- marshal.go:38-53 `Marshal`: the default options are copied (option.go:227-236), then comes the walk. Simplified as in `hmarshal`: what is written
is computed after the walk. -/
def aMarshal (E : Env) (S : SortFn) (fuel : Nat) (v : Ptr) (opts : List MOpt) : Act (Bytes × Option Err) :=
  .readOptions fun d => (aRead fuel v).onOk fun t => .ret (marshal E S d t opts)

/-- compare.go:8-47 `Equal`; simplified: both values are walked over to the end, whereas the code stops at the first difference -/
def aEqual (D : DecFn) (fuel : Nat) (v w : Ptr) : Act Bool :=
  (aRead fuel v).onOk fun t => (aRead fuel w).onOk fun u => .ret (.ok (equal D t u))

/-- contains.go `Contains` with a `*V`; simplified like `aEqual` -/
def aContains (E : Env) (D : DecFn) (fuel : Nat) (v sub : Ptr) (path : List Param) : Act Bool :=
  (aRead fuel v).onOk fun t => (aRead fuel sub).onOk fun u => .ret (containsAt E D t u path)

/-- compare.go: GreaterThan and its kin on two values; `f` compares what was read -/
def aCompare {α : Type} (v w : Ptr) (f : Cell → Cell → R α) : Act α :=
  (aLook v .ok).onOk fun c => (aLook w .ok).onOk fun d => .ret (f c d)

/-- iteration.go:24-38, 45-77, 113-126: the loops of the Range functions over the children found at the start, `f` being the callback, itself code
that may read; it returns whether to go on -/
def aEach {α : Type} (f : α → Ptr → Act Bool) : List (α × Ptr) → Act Unit
  | [] => .ret (.ok ())
  | (k, c) :: l => (f k c).onOk fun go => if go then aEach f l else .ret (.ok ())

/-- iteration.go:24-38 `RangeObjects`, 45-77 `RangeObjectsBySetSequence`: `order` is the order of the map or that of the ids -/
def aRangeObjects (order : List HEnt → List HEnt) (v : Ptr) (f : Bytes → Ptr → Act Bool) : Act Unit :=
  (aLook v .ok).onOk fun
    | .obj _ kvs _ => aEach f ((order kvs).map fun e => (e.key, e.v))
    | _ => .ret (.ok ())

/-- iteration.go:113-126 `RangeArray` -/
def aRangeArray (v : Ptr) (f : Nat → Ptr → Act Bool) : Act Unit :=
  (aLook v .ok).onOk fun
    | .arr xs => aEach f ((List.range xs.length).zip xs)
    | _ => .ret (.ok ())

/-- option.go:210-214 `SetDefaultMarshalOptions`, 219-221 `ResetDefaultMarshalOptions` with no options: a plain store of a pointer; the options it
points to are never written again -/
def aSetDefault (opts : List MOpt) : Act Unit := .writeOptions (emptyOptions.combineFrom opts) (.ret (.ok ()))

/-! ## goroutines without locks -/

/-- some goroutines, each with the code it still has to run -/
structure World (α : Type) where
  mem : Mem
  threads : List (Act α)

/-- one of them makes a step -/
inductive World.Step {α : Type} : World α → World α → Prop where
  | go (w : World α) (i : Nat) (p q : Act α) (m : Mem) (h : w.threads[i]? = some p) (hs : p.step w.mem = some (m, q)) :
      World.Step w { mem := m, threads := w.threads.set i q }

/-- any interleaving -/
inductive World.Steps {α : Type} : World α → World α → Prop where
  | refl (w : World α) : World.Steps w w
  | snoc {w x y : World α} (h : World.Steps w x) (s : World.Step x y) : World.Steps w y

/-- two accesses of the same memory, at least one of them a write -/
def Conflict (x y : Loc × Bool) : Prop := x.1 = y.1 ∧ (x.2 = true ∨ y.2 = true)

/-- a data race: two goroutines are both about to make conflicting accesses -/
def World.Race {α : Type} (w : World α) : Prop :=
  ∃ (i j : Nat) (p q : Act α) (x y : Loc × Bool), i ≠ j ∧ w.threads[i]? = some p ∧ w.threads[j]? = some q ∧ p.access = some x ∧ q.access = some y ∧ Conflict x y

/-! ## goroutines with a sync.RWMutex -/

/-- a goroutine that touches shared memory only while it holds the lock: `locked w p k` takes the lock (for writing if `w`, else for reading),
runs `p`, releases the lock and goes on with what it makes of the result -/
inductive Client (α : Type) : Type where
  | stop
  | locked (w : Bool) (p : Act α) (k : R α → Client α)

/-- where a goroutine is: outside, or holding the lock with `q` left of `p` -/
inductive Place (α : Type) : Type where
  | outside (c : Client α)
  | inside (w : Bool) (p : Act α) (k : R α → Client α) (q : Act α)

/-- the goroutines that use one sync.RWMutex; who holds the lock shows in their places -/
structure Locked (α : Type) where
  mem : Mem
  places : List (Place α)

/-- sync.RWMutex: Lock waits until nobody holds the lock, RLock until nobody holds it for writing. (That a waiting writer also keeps new readers
out only removes executions.) -/
def Locked.Free {α : Type} (s : Locked α) (w : Bool) : Prop :=
  ∀ w' p k q, .inside w' p k q ∈ s.places → w = false ∧ w' = false

inductive Locked.Step {α : Type} : Locked α → Locked α → Prop where
  | enter (s : Locked α) (i : Nat) (w : Bool) (p : Act α) (k : R α → Client α) (h : s.places[i]? = some (.outside (.locked w p k))) (hf : s.Free w) :
      Locked.Step s { s with places := s.places.set i (.inside w p k p) }
  | work (s : Locked α) (i : Nat) (w : Bool) (p : Act α) (k : R α → Client α) (q q' : Act α) (m : Mem) (h : s.places[i]? = some (.inside w p k q))
      (hs : q.step s.mem = some (m, q')) : Locked.Step s { mem := m, places := s.places.set i (.inside w p k q') }
  | leave (s : Locked α) (i : Nat) (w : Bool) (p : Act α) (k : R α → Client α) (r : R α) (h : s.places[i]? = some (.inside w p k (.ret r))) :
      Locked.Step s { s with places := s.places.set i (.outside (k r)) }

inductive Locked.Steps {α : Type} : Locked α → Locked α → Prop where
  | refl (s : Locked α) : Locked.Steps s s
  | snoc {s t u : Locked α} (h : Locked.Steps s t) (x : Locked.Step t u) : Locked.Steps s u

/-- the next access of a goroutine -/
def Place.access {α : Type} : Place α → Option (Loc × Bool)
  | .outside _ => none
  | .inside _ _ _ q => q.access

def Locked.Race {α : Type} (s : Locked α) : Prop :=
  ∃ (i j : Nat) (p q : Place α) (x y : Loc × Bool), i ≠ j ∧ s.places[i]? = some p ∧ s.places[j]? = some q ∧ p.access = some x ∧ q.access = some y ∧ Conflict x y

end JV
