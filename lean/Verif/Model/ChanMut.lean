import Verif.Model.RangeMut
/-!
The channel iterators while the caller changes the value. `IterArray` and `IterObjects` return at once; the goroutine they have started looks at
`v.children` only when it runs. Memory is sequentially consistent here: what the Go memory model calls a data race shows as an interleaving.
-/
namespace JV
variable {α : Type}

/-- One call of IterArray: the value, the channel, the goroutine, and the caller who receives. `hdr` is the slice the goroutine ranges over, array
and length, once it has evaluated it; `idx` the next index; `held` the element it has read and not sent yet. -/
structure ArrIter (α : Type) where
  v : ArrV α
  cap : Nat
  hdr : Option (Nat × Nat) := none
  idx : Nat := 0
  held : Option (α × Nat) := none
  buf : List (α × Nat) := []
  closed : Bool := false
  got : List (α × Nat) := []
  ended : Bool := false

/-- iteration.go:129-131, 141: the channel has room for the elements of this moment, the goroutine has not run yet -/
def iterArrayMut (a : ArrV α) : ArrIter α := { v := a, cap := a.len }

/-- what the goroutine does, iteration.go:132-140 -/
inductive ArrSends : ArrIter α → ArrIter α → Prop where
  /-- 133: the range expression is evaluated -/
  | begin (s : ArrIter α) (h : s.hdr = none) : ArrSends s { s with hdr := some (s.v.arr, s.v.len) }
  /-- 133: the next index and what the cell holds now -/
  | read (s : ArrIter α) (arr n : Nat) (x : α) (h : s.hdr = some (arr, n)) (hh : s.held = none) (hi : s.idx < n)
      (hx : (s.v.mem.getD arr [])[s.idx]? = some x) : ArrSends s { s with held := some (x, s.idx), idx := s.idx + 1 }
  /-- 134: there is room -/
  | send (s : ArrIter α) (p : α × Nat) (h : s.held = some p) (hb : s.buf.length < s.cap) : ArrSends s { s with held := none, buf := s.buf ++ [p] }
  /-- 139 -/
  | close (s : ArrIter α) (arr n : Nat) (h : s.hdr = some (arr, n)) (hh : s.held = none) (hi : s.idx = n) (hc : s.closed = false) :
      ArrSends s { s with closed := true }

/-- what the caller does with the channel -/
inductive ArrReceives : ArrIter α → ArrIter α → Prop where
  | recv (s : ArrIter α) (p : α × Nat) (r : List (α × Nat)) (h : s.buf = p :: r) (he : s.ended = false) :
      ArrReceives s { s with buf := r, got := s.got ++ [p] }
  | direct (s : ArrIter α) (p : α × Nat) (h : s.held = some p) (hb : s.buf = []) (he : s.ended = false) :
      ArrReceives s { s with held := none, got := s.got ++ [p] }
  | finish (s : ArrIter α) (hb : s.buf = []) (hc : s.closed = true) (he : s.ended = false) : ArrReceives s { s with ended := true }

/-- any interleaving, with the number of steps the goroutine made; `may s o` says when the caller makes the change `o` -/
inductive ArrRuns [HasNil α] (grow : Nat → Nat) (may : ArrIter α → SliceOp α → Prop) (s : ArrIter α) : Nat → ArrIter α → Prop where
  | start : ArrRuns grow may s 0 s
  | send {n : Nat} {t u : ArrIter α} (h : ArrRuns grow may s n t) (hs : ArrSends t u) : ArrRuns grow may s (n + 1) u
  | recv {n : Nat} {t u : ArrIter α} (h : ArrRuns grow may s n t) (hs : ArrReceives t u) : ArrRuns grow may s n u
  | change {n : Nat} {t : ArrIter α} (h : ArrRuns grow may s n t) (o : SliceOp α) (hm : may t o) (a : ArrV α) (he : t.v.op grow o = .ok a) :
      ArrRuns grow may s n { t with v := a }

/-! ## objects -/

/-- One call of IterObjects. `todo`: the entries the goroutine's `range` over the map has not come to, once it runs; `dead`: the program has ended
with "concurrent map iteration and map write", which no `recover` catches. -/
structure ObjIterV where
  v : V
  cap : Nat
  todo : Option (List Ent) := none
  buf : List (Bytes × V) := []
  closed : Bool := false
  got : List (Bytes × V) := []
  ended : Bool := false
  dead : Bool := false

/-- the entries of the map -/
def mapEntries : V → List Ent
  | .obj _ kvs _ => kvs
  | _ => []

/-- iteration.go:80-81, 92 -/
def iterObjectsMut (v : V) : ObjIterV := { v := v, cap := (mapEntries v).length }

/-- what the goroutine does, iteration.go:83-91. Simplification: an entry is read at the moment it is sent. -/
inductive ObjSends : ObjIterV → ObjIterV → Prop where
  /-- 84: the order of the entries is the runtime's choice -/
  | begin (s : ObjIterV) (l : List Ent) (h : s.todo = none) (hl : l.Perm (mapEntries s.v)) (hd : s.dead = false) : ObjSends s { s with todo := some l }
  /-- 85-88: there is room -/
  | send (s : ObjIterV) (e : Ent) (l : List Ent) (h : s.todo = some (e :: l)) (hb : s.buf.length < s.cap) (hd : s.dead = false) :
      ObjSends s { s with todo := some l, buf := s.buf ++ [(e.key, e.v)] }
  /-- 90 -/
  | close (s : ObjIterV) (h : s.todo = some []) (hc : s.closed = false) (hd : s.dead = false) : ObjSends s { s with closed := true }

/-- what the caller does with the channel -/
inductive ObjReceives : ObjIterV → ObjIterV → Prop where
  | recv (s : ObjIterV) (p : Bytes × V) (r : List (Bytes × V)) (h : s.buf = p :: r) (he : s.ended = false) (hd : s.dead = false) :
      ObjReceives s { s with buf := r, got := s.got ++ [p] }
  | direct (s : ObjIterV) (e : Ent) (l : List Ent) (h : s.todo = some (e :: l)) (hb : s.buf = []) (he : s.ended = false) (hd : s.dead = false) :
      ObjReceives s { s with todo := some l, got := s.got ++ [(e.key, e.v)] }
  | finish (s : ObjIterV) (hb : s.buf = []) (hc : s.closed = true) (he : s.ended = false) (hd : s.dead = false) : ObjReceives s { s with ended := true }

/-- any interleaving, see `ArrRuns`. A change while the goroutine ranges over the map may end the program. Simplification: it always does; the
runtime does not notice every time. -/
inductive ObjRuns (E : Env) (may : ObjIterV → MapOp → Prop) (s : ObjIterV) : Nat → ObjIterV → Prop where
  | start : ObjRuns E may s 0 s
  | send {n : Nat} {t u : ObjIterV} (h : ObjRuns E may s n t) (hs : ObjSends t u) : ObjRuns E may s (n + 1) u
  | recv {n : Nat} {t u : ObjIterV} (h : ObjRuns E may s n t) (hs : ObjReceives t u) : ObjRuns E may s n u
  | change {n : Nat} {t : ObjIterV} (h : ObjRuns E may s n t) (o : MapOp) (hm : may t o) (hd : t.dead = false) :
      ObjRuns E may s n { t with v := o.run E t.v, dead := t.todo.isSome && !t.closed }

end JV
