import Verif.Model.Modify
import Verif.Model.Iterate
/-!
Loops whose callback changes the value being iterated over. A Go slice is a window on a backing array; `append`, `copy` and assignments write into
that array, and a `range` loop over the slice reads it again in each round. Model/Modify takes `children.arr` as a list of its elements;
Proofs/RangeMut shows that this is right for the functions that change it, whatever the capacity of the arrays. The elements of type `α` are the
pointers to the children.
-/
namespace JV

/-- all backing arrays of one program, at full capacity, and the field `children.arr` of one value: array and length. All slices of the repository
start at the beginning of their array. `children.arr == nil` is an array of capacity 0. -/
structure ArrV (α : Type) where
  mem : List (List α)
  arr : Nat
  len : Nat

variable {α σ : Type}

/-- the backing array -/
def ArrV.cells (a : ArrV α) : List α := a.mem.getD a.arr []

/-- the elements `children.arr[0:len]` -/
def ArrV.view (a : ArrV α) : List α := a.cells.take a.len

/-- the same window with other elements in it -/
def ArrV.fill (a : ArrV α) (xs : List α) : ArrV α := { a with mem := a.mem.set a.arr (xs ++ a.cells.drop a.len) }

/-- `arr = append(arr, x)`: set.go:407, unmarshal.go:168-173 `appendToArr`, insert_append_delete.go:283. `grow n` is the capacity of the new array
for a full slice of length `n` (`make` in appendToArr, or runtime.growslice). -/
def ArrV.append [HasNil α] (grow : Nat → Nat) (a : ArrV α) (x : α) : ArrV α :=
  if a.len < a.cells.length then { a with mem := a.mem.set a.arr (a.cells.set a.len x), len := a.len + 1 }
  else { mem := a.mem ++ [a.view ++ x :: List.replicate (grow a.len - (a.len + 1)) HasNil.nilv], arr := a.mem.length, len := a.len + 1 }

/-- `arr[i] = x`: set.go:409, insert_append_delete.go:285, 629 -/
def ArrV.store (a : ArrV α) (i : Nat) (x : α) : R (ArrV α) := if i < a.len then .ok { a with mem := a.mem.set a.arr (a.cells.set i x) } else .panic

/-- `copy(arr[d:], arr[s:])` -/
def ArrV.copy (a : ArrV α) (d s : Nat) : R (ArrV α) :=
  if d ≤ a.len ∧ s ≤ a.len then .ok (a.fill (copyAt a.view d (a.view.drop s))) else .panic

/-- insert_append_delete.go:282-286 `insertToArr` -/
def ArrV.insert [HasNil α] (grow : Nat → Nat) (a : ArrV α) (pos : Nat) (x : α) : R (ArrV α) := do
  let a := a.append grow HasNil.nilv
  let a ← a.copy (pos + 1) pos
  a.store pos x

/-- insert_append_delete.go:627-632 `deleteInArr` -/
def ArrV.delete [HasNil α] (a : ArrV α) (pos : Nat) : R (ArrV α) := do
  let le := a.len
  let a ← a.store pos HasNil.nilv
  let a ← a.copy pos (pos + 1)
  pure { a with len := le - 1 }

/-- what the modifying calls do with the array they have found; `swap` is sort.go:63-65, called by sort.Sort -/
inductive SliceOp (α : Type) where
  | append (x : α)
  | set (pos : Nat) (x : α)
  | insert (pos : Nat) (x : α)
  | delete (pos : Nat)
  | swap (i j : Nat)

/-- one of them -/
def ArrV.op [HasNil α] (grow : Nat → Nat) (a : ArrV α) : SliceOp α → R (ArrV α)
  | .append x => .ok (a.append grow x)
  | .set pos x => a.store pos x
  | .insert pos x => a.insert grow pos x
  | .delete pos => a.delete pos
  | .swap i j =>
    match a.view[i]?, a.view[j]? with
    | some x, some y => do
      let a ← a.store i y
      a.store j x
    | _, _ => .panic

/-- some of them, one after the other -/
def ArrV.ops [HasNil α] (grow : Nat → Nat) (a : ArrV α) : List (SliceOp α) → R (ArrV α)
  | [] => .ok a
  | o :: os => do
    let a ← a.op grow o
    a.ops grow os

/-- a callback that changes the array: from its own state, the index, the child and the elements the array has now, its new state, what it does to
the array, and whether to go on -/
abbrev ArrCallback (σ α : Type) := σ → Nat → α → List α → σ × List (SliceOp α) × Bool

/-- `for i, child := range s { if ok := callback(i, child); !ok { break } }` with the slice `s` = (`arr`, `n`): the slice is evaluated once, its
elements in each round. `todo` rounds are left; the index is `n - todo`. -/
def rangeSlice [HasNil α] (grow : Nat → Nat) (cb : ArrCallback σ α) (arr n : Nat) : Nat → σ → ArrV α → R (σ × ArrV α)
  | 0, s, a => .ok (s, a)
  | todo + 1, s, a =>
    match (a.mem.getD arr [])[n - (todo + 1)]? with
    | none => .panic
    | some x => do
      let r := cb s (n - (todo + 1)) x a.view
      let a ← a.ops grow r.2.1
      if r.2.2 then rangeSlice grow cb arr n todo r.1 a else .ok (r.1, a)

/-- iteration.go:113-126 `RangeArray` on an array, with a callback that may change it -/
def rangeArrayMut [HasNil α] (grow : Nat → Nat) (cb : ArrCallback σ α) (s : σ) (a : ArrV α) : R (σ × ArrV α) := rangeSlice grow cb a.arr a.len a.len s a

/-- iteration.go:147-150 `ForRangeArr`, and a loop over the slice it returned: the elements are copied to a new array -/
def forRangeArrMut [HasNil α] (grow : Nat → Nat) (cb : ArrCallback σ α) (s : σ) (a : ArrV α) : R (σ × ArrV α) :=
  rangeSlice grow cb a.mem.length a.len a.len s { a with mem := a.mem ++ [a.view] }

/-! ## objects -/

/-- what the modifying calls do with the map they have found: set.go:167-174 `setToObjectChildren`, insert_append_delete.go:524-556
`delFromObjectChildren` -/
inductive MapOp where
  | set (k : Bytes) (c : V)
  | del (k : Bytes)

/-- on the object; any other value is left alone -/
def MapOp.run (E : Env) : MapOp → V → V
  | .set k c, .obj n kvs low => setKey E n kvs low k c
  | .del k, .obj n kvs low => (delKey E false n kvs low k).1
  | _, v => v

/-- a callback that changes the object; see `ArrCallback` -/
abbrev ObjCallback (σ : Type) := σ → Bytes → V → V → σ × List MapOp × Bool

/-- the members of an object -/
def entries : V → List Ent
  | .obj _ kvs _ => kvs
  | _ => []

/-- A `range` over a map while it is being changed: `pending` are the keys that were there when the loop began, were not removed since, and were not
produced yet; `fresh` those that were added while the loop was running (also again, after a removal) and were not produced since. -/
structure MapIter where
  v : V
  pending : List Bytes
  fresh : List Bytes

/-- the effect of an operation on the iteration; The Go Programming Language Specification, "For statements with range clause": entries not yet
reached that are removed are not produced, entries that are created may be produced or skipped -/
def MapIter.op (E : Env) (it : MapIter) : MapOp → MapIter
  | .set k c =>
    { it with v := (MapOp.set k c).run E it.v, fresh := if (lookup k (entries it.v)).isSome then it.fresh else k :: it.fresh }
  | .del k =>
    { v := (MapOp.del k).run E it.v, pending := it.pending.filter (· ≠ k), fresh := it.fresh.filter (· ≠ k) }

/-- iteration.go:24-38 `RangeObjects` on an object with a callback that may change it: all the ways it can go. The result is the state of the callback
and the object at the end. -/
inductive RangeMap (E : Env) (cb : ObjCallback σ) : σ → MapIter → σ × V → Prop where
  | done (s : σ) (it : MapIter) (h : it.pending = []) : RangeMap E cb s it (s, it.v)
  | next (s : σ) (it : MapIter) (k : Bytes) (e : Ent) (r : σ × V) (hk : k ∈ it.pending ∨ k ∈ it.fresh) (he : lookup k (entries it.v) = some e)
      (hgo : (cb s k e.v it.v).2.2 = true)
      (h : RangeMap E cb (cb s k e.v it.v).1
        ((cb s k e.v it.v).2.1.foldl (MapIter.op E) { it with pending := it.pending.filter (· ≠ k), fresh := it.fresh.filter (· ≠ k) }) r) : RangeMap E cb s it r
  | stop (s : σ) (it : MapIter) (k : Bytes) (e : Ent) (hk : k ∈ it.pending ∨ k ∈ it.fresh) (he : lookup k (entries it.v) = some e)
      (hgo : (cb s k e.v it.v).2.2 = false) : RangeMap E cb s it ((cb s k e.v it.v).1, (cb s k e.v it.v).2.1.foldl (fun v o => o.run E v) it.v)

/-- the loop begins with all keys pending -/
def RangeObjectsMut (E : Env) (cb : ObjCallback σ) (s : σ) (v : V) (r : σ × V) : Prop := RangeMap E cb s { v := v, pending := (entries v).map Ent.key, fresh := [] } r

/-- iteration.go:72-76: the loop over the sorted copy of the members -/
def visitMut (E : Env) (cb : ObjCallback σ) : List Ent → σ → V → σ × V
  | [], s, v => (s, v)
  | e :: es, s, v =>
    let r := cb s e.key e.v v
    let v := r.2.1.foldl (fun v o => o.run E v) v
    if r.2.2 then visitMut E cb es r.1 v else (r.1, v)

/-- iteration.go:45-77 `RangeObjectsBySetSequence` on an object with a callback that may change it -/
def rangeObjectsBySetMut (E : Env) (S : SortFn) (cb : ObjCallback σ) (s : σ) (v : V) : σ × V :=
  visitMut E cb (sortBy S (fun a b => decide (a.id ≤ b.id)) (entries v)) s v

end JV
