import Verif.Model.Threads
/-! What goroutines that share values may rely on. -/
namespace Spec
open JV

/-- code that writes nothing that is shared, whatever it finds there -/
def ReadOnly {α : Type} : Act α → Prop
  | .ret _ => True
  | .read _ k => ∀ c, ReadOnly (k c)
  | .readIndex _ k => ∀ l, ReadOnly (k l)
  | .readOptions k => ∀ o, ReadOnly (k o)
  | .write _ _ _ => False
  | .writeIndex _ _ _ => False
  | .writeOptions _ _ => False
  | .alloc _ _ => False

/-- code that changes no value, but may set the default options -/
def KeepsValues {α : Type} : Act α → Prop
  | .ret _ => True
  | .read _ k => ∀ c, KeepsValues (k c)
  | .readIndex _ k => ∀ l, KeepsValues (k l)
  | .readOptions k => ∀ o, KeepsValues (k o)
  | .write _ _ _ => False
  | .writeIndex _ _ _ => False
  | .writeOptions _ k => KeepsValues k
  | .alloc _ _ => False

/-- the default options that this code may set -/
def MaySet {α : Type} (d : Opt) : Act α → Prop
  | .ret _ => False
  | .read _ k => ∃ c, MaySet d (k c)
  | .readIndex _ k => ∃ l, MaySet d (k l)
  | .readOptions k => ∃ o, MaySet d (k o)
  | .write _ _ k => MaySet d k
  | .writeIndex _ _ k => MaySet d k
  | .writeOptions o k => o = d ∨ MaySet d k
  | .alloc _ k => ∃ a, MaySet d (k a)

/-- A goroutine that keeps to the rules of the documentation: what it runs under the read lock only reads. Under the write lock it may run
anything. -/
def Disciplined {α : Type} : Client α → Prop
  | .stop => True
  | .locked w p k => (w = false → ReadOnly p) ∧ ∀ r, Disciplined (k r)

/-- one goroutine runs one of its critical sections from beginning to end, the others wait -/
inductive Serial {α : Type} : Mem → List (Client α) → Mem → List (Client α) → Prop where
  | start (m : Mem) (cs : List (Client α)) : Serial m cs m cs
  | next {m m' : Mem} {cs cs' : List (Client α)} (h : Serial m cs m' cs') (i : Nat) (w : Bool) (p : Act α) (k : R α → Client α)
      (hi : cs'[i]? = some (.locked w p k)) : Serial m cs (p.run m').1 (cs'.set i (k (p.run m').2))

/-- how a Range loop ends after a callback with this result -/
def loopEnd : R Bool → R Unit
  | .ok _ => .ok ()
  | .err e => .err e
  | .panic => .panic
  | .diverge => .diverge

end Spec
