import Verif.Model.Iterate
/-!
The deprecated channel iterators: the goroutine that sends the children, the buffered channel, and a receiver that may receive
whenever it likes and may stop at any time. The value must not be changed while the goroutine reads it (that would be a data race).
-/
namespace JV

/-- A channel with its sender and receiver. `todo`: what the sending goroutine has not sent yet; `buf`: the buffer; `got`: what the receiver
has received; `ended`: the receiver has seen the channel closed and empty (its `range` loop is over). -/
structure Chan (α : Type) where
  cap : Nat
  todo : List α
  buf : List α := []
  closed : Bool := false
  got : List α := []
  ended : Bool := false

/-- iteration.go:81-92, 130-141: `make(chan, n)` and `go func`, with the children the goroutine is going to range over -/
def startChan {α : Type} (n : Nat) (l : List α) : Chan α := { cap := n, todo := l }

/-- steps of the sending goroutine that need no receiver: iteration.go:85, 134 `ch <- x` while the buffer is not full, 90, 139 `close(ch)` -/
inductive Sends {α : Type} : Chan α → Chan α → Prop where
  | send (s : Chan α) (x : α) (r : List α) (h : s.todo = x :: r) (hc : s.closed = false) (hb : s.buf.length < s.cap) :
      Sends s { s with todo := r, buf := s.buf ++ [x] }
  | close (s : Chan α) (h : s.todo = []) (hc : s.closed = false) : Sends s { s with closed := true }

/-- steps in which the receiver takes part: from the buffer, directly from a blocked or arriving sender, or the end of the channel -/
inductive Receives {α : Type} : Chan α → Chan α → Prop where
  | recv (s : Chan α) (x : α) (r : List α) (h : s.buf = x :: r) (he : s.ended = false) :
      Receives s { s with buf := r, got := s.got ++ [x] }
  | direct (s : Chan α) (x : α) (r : List α) (h : s.todo = x :: r) (hc : s.closed = false) (hb : s.buf = []) (he : s.ended = false) :
      Receives s { s with todo := r, got := s.got ++ [x] }
  | finish (s : Chan α) (hb : s.buf = []) (hc : s.closed = true) (he : s.ended = false) : Receives s { s with ended := true }

/-- any interleaving of sender and receiver, with the number of steps the sender made -/
inductive Runs {α : Type} : Chan α → Nat → Chan α → Prop where
  | start (s : Chan α) : Runs s 0 s
  | send {s t u : Chan α} {n : Nat} (h : Runs s n t) (hs : Sends t u) : Runs s (n + 1) u
  | recv {s t u : Chan α} {n : Nat} (h : Runs s n t) (hs : Receives t u) : Runs s n u

/-- iteration.go:129-142 `IterArray` -/
def iterArray (v : V) : R (Chan (Nat × V)) :=
  match v with
  | .nilp => .panic
  | .arr xs => .ok (startChan xs.length (indexed 0 xs))
  | _ => .ok (startChan 0 [])

/-- iteration.go:80-95 `IterObjects`; `order` is the order in which this `range` over the map visits the entries, see `IterObjects` -/
def iterObjects (v : V) (order : List Ent → List Ent) : R (Chan (Bytes × V)) :=
  match v with
  | .nilp => .panic
  | .obj _ kvs _ => .ok (startChan kvs.length ((order kvs).map fun e => (e.key, e.v)))
  | _ => .ok (startChan 0 [])

end JV
