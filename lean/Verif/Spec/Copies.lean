import Verif.Spec.RangeMut
/-!
What a user may expect of a `jsonvalue.V` that was copied by assignment (`w := *v`, a V in a struct that is copied, a range over a `[]jsonvalue.V`).

For objects: a world of families of members; every variable belongs to a family, an assignment makes another variable of the same family, and a deep
copy begins a family of its own. Calls are given with their outcome.
-/
namespace Spec
open JV

/-- The calls. Variables are numbered in the order in which they come into being. -/
inductive CopyOp where
  /-- `vars[i].Set(c).At(k)` -/
  | set (i : Nat) (k : Bytes) (c : V)
  /-- `vars[i].Delete(k)` or `vars[i].Caseless().Delete(k)` -/
  | del (i : Nat) (cl : Bool) (k : Bytes)
  /-- `vars[i].Get(k)` or `vars[i].Caseless().Get(k)` -/
  | get (i : Nat) (cl : Bool) (k : Bytes)
  /-- any call through the pointer to the member `k` of `vars[i]`; `f` is what it does to the member -/
  | sub (i : Nat) (k : Bytes) (f : V → V)
  /-- `w := vars[i]` -/
  | copy (i : Nat)
  /-- a deep copy of `vars[i]` -/
  | clone (i : Nat)

/-- the variable the call is made on -/
def CopyOp.var : CopyOp → Nat
  | .set i .. | .del i .. | .get i .. | .sub i .. | .copy i | .clone i => i

/-- what the caller sees -/
inductive CopyOut where
  | done
  | found (c : V)
  | missing

/-- the members of every family, and the family of every variable -/
structure World where
  fams : List (Bytes → Option V)
  vars : List Nat

/-- one member changed, added or (with `none`) removed -/
def upd (f : Bytes → Option V) (k : Bytes) (o : Option V) : Bytes → Option V := fun k' => if k' = k then o else f k'

/-- family `a` has other members now -/
def World.put (w : World) (a : Nat) (f : Bytes → Option V) : World := { w with fams := w.fams.set a f }

/-- The key a lookup for `k` may come to: `k` itself if it is there, and otherwise, when case does not matter, one that differs from it in case only. -/
inductive Hits (lower : Bytes → Bytes) (f : Bytes → Option V) (cl : Bool) (k : Bytes) : Bytes → Prop where
  | exact (h : (f k).isSome) : Hits lower f cl k k
  | fold (k' : Bytes) (hcl : cl = true) (hk : f k = none) (h : (f k').isSome) (hl : lower k' = lower k) : Hits lower f cl k k'

/-- There is nothing to find. With `full = False`, only an exact match counts. -/
def NoHit (full : Prop) (lower : Bytes → Bytes) (f : Bytes → Option V) (cl : Bool) (k : Bytes) : Prop :=
  f k = none ∧ (full → ∀ k', ¬ Hits lower f cl k k')

/-- One call in the world. -/
inductive CopyStep (full : Prop) (lower : Bytes → Bytes) (w : World) : CopyOp → CopyOut → World → Prop where
  | set {i a f k c} (hv : w.vars[i]? = some a) (hf : w.fams[a]? = some f) : CopyStep full lower w (.set i k c) .done (w.put a (upd f k (some c)))
  | del {i a f cl k k'} (hv : w.vars[i]? = some a) (hf : w.fams[a]? = some f) (h : Hits lower f cl k k') :
      CopyStep full lower w (.del i cl k) .done (w.put a (upd f k' none))
  | delNot {i a f cl k} (hv : w.vars[i]? = some a) (hf : w.fams[a]? = some f) (h : NoHit full lower f cl k) : CopyStep full lower w (.del i cl k) .missing w
  | get {i a f cl k k' c} (hv : w.vars[i]? = some a) (hf : w.fams[a]? = some f) (h : Hits lower f cl k k') (hc : f k' = some c) :
      CopyStep full lower w (.get i cl k) (.found c) w
  | getNot {i a f cl k} (hv : w.vars[i]? = some a) (hf : w.fams[a]? = some f) (h : NoHit full lower f cl k) : CopyStep full lower w (.get i cl k) .missing w
  | sub {i a f k g c} (hv : w.vars[i]? = some a) (hf : w.fams[a]? = some f) (hc : f k = some c) :
      CopyStep full lower w (.sub i k g) .done (w.put a (upd f k (some (g c))))
  | subNot {i a f k g} (hv : w.vars[i]? = some a) (hf : w.fams[a]? = some f) (hc : f k = none) : CopyStep full lower w (.sub i k g) .missing w
  | copy {i a} (hv : w.vars[i]? = some a) : CopyStep full lower w (.copy i) .done { w with vars := w.vars ++ [a] }
  | clone {i a f} (hv : w.vars[i]? = some a) (hf : w.fams[a]? = some f) :
      CopyStep full lower w (.clone i) .done { fams := w.fams ++ [f], vars := w.vars ++ [w.fams.length] }

/-- the outcomes of the calls of a program, one after the other -/
inductive CopyRun (full : Prop) (lower : Bytes → Bytes) : World → List CopyOp → List CopyOut → World → Prop where
  | nil (w : World) : CopyRun full lower w [] [] w
  | cons {w w' w'' : World} {o : CopyOp} {os : List CopyOp} {r : CopyOut} {rs : List CopyOut} (h : CopyStep full lower w o r w')
      (ht : CopyRun full lower w' os rs w'') : CopyRun full lower w (o :: os) (r :: rs) w''

/-- Every call of the program is made on a variable that exists at that time; `n` variables exist at the start. -/
def Written (n : Nat) : List CopyOp → Prop
  | [] => True
  | .copy i :: os | .clone i :: os => i < n ∧ Written (n + 1) os
  | o :: os => o.var < n ∧ Written n os

/-! ## arrays -/

variable {α : Type}

/-- What another variable that shares its array shows after a call through `v`: `xs` are the elements of `v`, `room` tells whether the array has room
for one more behind them, and `ys` are the elements of the other variable, always as many as before. -/
def shadow [HasNil α] (room : Bool) (xs ys : List α) : SliceOp α → List α
  | .append x => if room then ys.set xs.length x else ys
  | .set p x => ys.set p x
  | .insert p x => if room then (xs.take p ++ x :: xs.drop p ++ ys.drop (xs.length + 1)).take ys.length else ys
  | .delete p => (xs.eraseIdx p ++ (if p + 1 = xs.length then HasNil.nilv else xs.getLastD HasNil.nilv) :: ys.drop xs.length).take ys.length
  | .swap p q => match xs[p]?, xs[q]? with
    | some x, some y => (ys.set p y).set q x
    | _, _ => ys

end Spec
