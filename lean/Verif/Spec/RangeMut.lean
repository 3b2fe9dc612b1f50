import Verif.Model.RangeMut
/-!
What a user expects of arrays and of loops with a callback that changes what is iterated over.
-/
namespace Spec
open JV
variable {α σ : Type}

/-- the operations on a list of elements -/
def listOp : SliceOp α → List α → R (List α)
  | .append x, xs => .ok (xs ++ [x])
  | .set i x, xs => if i < xs.length then .ok (xs.set i x) else .panic
  | .insert i x, xs => if i ≤ xs.length then .ok (xs.take i ++ x :: xs.drop i) else .panic
  | .delete i, xs => if i < xs.length then .ok (xs.eraseIdx i) else .panic
  | .swap i j, xs =>
    match xs[i]?, xs[j]? with
    | some x, some y => .ok ((xs.set i y).set j x)
    | _, _ => .panic

def listOps : List (SliceOp α) → List α → R (List α)
  | [], xs => .ok xs
  | o :: os, xs =>
    match listOp o xs with
    | .ok ys => listOps os ys
    | r => r

/-- The loop as expected: the callback is called for the elements that were there at the start, in order; what it does, it does to the array as it
is at that moment. The result is the state of the callback and the array at the end. -/
def snapshotLoop (cb : ArrCallback σ α) : List (α × Nat) → σ → List α → R (σ × List α)
  | [], s, xs => .ok (s, xs)
  | (x, i) :: l, s, xs =>
    match listOps (cb s i x xs).2.1 xs with
    | .ok ys => if (cb s i x xs).2.2 then snapshotLoop cb l (cb s i x xs).1 ys else .ok ((cb s i x xs).1, ys)
    | .err e => .err e
    | .panic => .panic
    | .diverge => .diverge

/-- the slice lies in its array -/
def WFArr (a : ArrV α) : Prop := ∃ cells, a.mem[a.arr]? = some cells ∧ a.len ≤ cells.length

/-- the state of the callback and the elements of the array after a loop -/
def outcome : R (σ × ArrV α) → R (σ × List α)
  | .ok (s, a) => .ok (s, a.view)
  | .err e => .err e
  | .panic => .panic
  | .diverge => .diverge

/-- operations of round `i` that leave the elements behind `i` alone -/
def Calm (i : Nat) : SliceOp α → Prop
  | .append _ => True
  | .set pos _ => pos ≤ i
  | .swap j k => j ≤ i ∧ k ≤ i
  | .insert _ _ => False
  | .delete _ => False

/-- A callback that ends the loop whenever it has removed or inserted an element, or changed one it has not seen yet -/
def CalmCallback (cb : ArrCallback σ α) : Prop := ∀ s i x xs, (cb s i x xs).2.2 = false ∨ ∀ o ∈ (cb s i x xs).2.1, Calm i o

/-- what a callback decides about a member -/
inductive Fate where
  | keep
  | replace (c : V)
  | remove

/-- the callback that notes the keys it is called with, replaces or removes the member it is called with as `f` says, and goes on -/
def rewriter (f : Bytes → V → Fate) : ObjCallback (List Bytes) := fun s k c _ =>
  (s ++ [k], (match f k c with | .keep => [] | .replace c' => [.set k c'] | .remove => [.del k]), true)

/-- the member of an object, if any, under a key -/
def memberAt (k : Bytes) (v : V) : Option V := (lookup k (entries v)).map Ent.v

/-- what is to be under a key afterwards -/
def fated (f : Bytes → V → Fate) (k : Bytes) : Option V → Option V
  | none => none
  | some c => match f k c with
    | .keep => some c
    | .replace c' => some c'
    | .remove => none

/-- the same callback, which goes on only if `go` says so -/
def stopper (f : Bytes → V → Fate) (go : Bytes → V → Bool) : ObjCallback (List Bytes) := fun s k c v => ((rewriter f s k c v).1, (rewriter f s k c v).2.1, go k c)

/-- the loop `r` over `v` went on as long as `go` said so: all keys were seen and `go` said yes to each, or it said no to the last one seen and yes to
the others. The members seen are as decided, the others as they were. -/
structure StoppedBy (f : Bytes → V → Fate) (go : Bytes → V → Bool) (v : V) (r : List Bytes × V) : Prop where
  once : r.1.Nodup
  seen : ∀ k ∈ r.1, (memberAt k v).isSome = true
  decided : ∀ k ∈ r.1, memberAt k r.2 = fated f k (memberAt k v)
  same : ∀ k, k ∉ r.1 → memberAt k r.2 = memberAt k v
  until_no : ((∀ k, (memberAt k v).isSome = true → k ∈ r.1) ∧ ∀ k c, memberAt k v = some c → go k c = true) ∨
    ∃ l k c, r.1 = l ++ [k] ∧ memberAt k v = some c ∧ go k c = false ∧ ∀ k' ∈ l, ∀ c', memberAt k' v = some c' → go k' c' = true

/-- any callback, with a record of its calls: the key, the child and the object as it was then -/
def logged (cb : ObjCallback σ) : ObjCallback (List (Bytes × V × V) × σ) := fun s k c v =>
  ((s.1 ++ [(k, c, v)], (cb s.2 k c v).1), (cb s.2 k c v).2.1, (cb s.2 k c v).2.2)

/-- the children that the calls for one key were made with -/
def visitsOf (k : Bytes) (l : List (Bytes × V × V)) : List V := l.filterMap fun x => if x.1 = k then some x.2.1 else none

/-- the callback never sets the member `k` -/
def NeverSets (cb : ObjCallback σ) (k : Bytes) : Prop := ∀ s k' c v d, MapOp.set k d ∉ (cb s k' c v).2.1

/-- the callback never removes the member `k` -/
def NeverRemoves (cb : ObjCallback σ) (k : Bytes) : Prop := ∀ s k' c v, MapOp.del k ∉ (cb s k' c v).2.1

/-- any callback for arrays, with a record of its calls: the index, the child and the elements the array had then -/
def loggedArr (cb : ArrCallback σ α) : ArrCallback (List (Nat × α × List α) × σ) α := fun s i x xs =>
  ((s.1 ++ [(i, x, xs)], (cb s.2 i x xs).1), (cb s.2 i x xs).2.1, (cb s.2 i x xs).2.2)

/-- operations that make the array no longer -/
def NotLonger : SliceOp α → Prop
  | .append _ => False
  | .insert _ _ => False
  | _ => True

/-- the callback that deletes the element it is called with, as long as its index exists: `arr.Delete(i)` -/
def deleter : ArrCallback Unit α := fun _ i _ xs => ((), (if i < xs.length then [.delete i] else []), true)

/-- every second element, beginning with the second -/
def everySecond : List α → List α
  | _ :: y :: l => y :: everySecond l
  | _ => []

end Spec
