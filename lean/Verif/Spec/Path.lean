import Verif.Model.Access
/-!
What path parameters address, stated without the model's access functions.
-/
namespace Spec
open JV

/-- element addressed by index `i` in an array of length `n`; negative indexes count from the end -/
def index (n : Nat) (i : Int) : Option Nat :=
  if 0 ≤ i ∧ i < n then some i.toNat else if -(n : Int) ≤ i ∧ i < 0 then some (n + i).toNat else none

/-- the integer a parameter is taken for; an unsigned value of 2^63 or more is taken for a negative one, as `int(u)` in Go -/
def intOf : Param → Option Int
  | .int i => some i.toInt
  | .uint u => some u.toInt
  | _ => none

/-- `Addr v ps l`: in `v` the parameters `ps` address the node at location `l`. -/
inductive Addr : V → List Param → List Step → Prop
  | slice (v : V) (q : Param) (qs : List Param) (l : List Step) : Addr v (q :: qs) l → Addr v [.slice (q :: qs)] l
  | key (n kvs low k c) : (V.obj n kvs low).child (.key k) = some c → Addr (.obj n kvs low) [.str k] [.key k]
  | idx (xs p z i) : intOf p = some z → index (List.length xs) z = some i → Addr (.arr xs) [p] [.idx i]
  | keyCons (n kvs low k c q qs l) : (V.obj n kvs low).child (.key k) = some c → Addr c (q :: qs) l →
      Addr (.obj n kvs low) (.str k :: q :: qs) (.key k :: l)
  | idxCons (xs p z i c q qs l) : intOf p = some z → index (List.length xs) z = some i → (V.arr xs).child (.idx i) = some c →
      Addr c (q :: qs) l → Addr (.arr xs) (p :: q :: qs) (.idx i :: l)

/-- locations `l` and `m` part at some step -/
inductive Parts : List Step → List Step → Prop
  | here (s t l m) : s ≠ t → Parts (s :: l) (t :: m)
  | there (s l m) : Parts l m → Parts (s :: l) (s :: m)

/-- the tree `v` with the node at location `l` replaced by `w` and nothing else touched (`put` exchanges one child in place) -/
def replace : V → List Step → V → V
  | _, [], w => w
  | v, s :: l, w => match v.child s with
    | some c => v.put s (replace c l w)
    | none => v

/-- no parameter is itself a slice or array -/
def Plain (ps : List Param) : Prop := ∀ p ∈ ps, p.isSlice = false

/-- the parameter that names a step: the key, or the index counted from the beginning -/
def stepParam : Step → Param
  | .key k => .str k
  | .idx i => .int (BitVec.ofNat 64 i)

/-- the parameters that name a location -/
def pathOf (l : List Step) : List Param := l.map stepParam

/-- every index fits Go's int -/
def Small (l : List Step) : Prop := ∀ i, Step.idx i ∈ l → i < 2 ^ 63

/-- Somewhere along the path, before its last parameter, an index into an existing array neither addresses an element nor is the
position right after the last element. -/
inductive Skips : V → List Param → Prop
  | slice (v q qs) : Skips v (q :: qs) → Skips v [.slice (q :: qs)]
  | here (xs p z q qs) : intOf p = some z → index (List.length xs) z = none → index (List.length xs + 1) z ≠ some (List.length xs) →
      Skips (.arr xs) (p :: q :: qs)
  | key (n kvs low k c q qs) : (V.obj n kvs low).child (.key k) = some c → Skips c (q :: qs) → Skips (.obj n kvs low) (.str k :: q :: qs)
  | idx (xs p z i c q qs) : intOf p = some z → index (List.length xs) z = some i → (V.arr xs).child (.idx i) = some c → Skips c (q :: qs) →
      Skips (.arr xs) (p :: q :: qs)

/-- What a successful Set may have done to the container at `m` through which its path goes by step `s`. -/
inductive Made (v v' : V) (m : List Step) : Step → Prop
  | inObj (k n kvs low n' kvs' low') : v.at m = some (.obj n kvs low) → v'.at m = some (.obj n' kvs' low') → Made v v' m (.key k)
  | inArr (i xs ys) : v.at m = some (.arr xs) → v'.at m = some (.arr ys) → i ≤ xs.length → Made v v' m (.idx i)
  | newObj (k c) : v.at m = none → v'.at m = some (.obj 1 [⟨k, 1, c⟩] none) → Made v v' m (.key k)
  | newArr (c) : v.at m = none → v'.at m = some (.arr [c]) → Made v v' m (.idx 0)

/-- a value with neither a nil pointer in it nor being one -/
def NoNil (v : V) : Prop := ∀ l, v.at l ≠ some .nilp

/-- No string anywhere in the value is blank after `bytes.TrimSpace`. -/
def NoBlankStr (E : Env) (v : V) : Prop := ∀ l s, v.at l = some (.str s) → E.trimSpace s ≠ []

/-- every node of the tree satisfies `P` -/
def Her (P : V → Prop) (v : V) : Prop := ∀ l c, v.at l = some c → P c

/-- everything one node shows of itself: scalars completely, arrays their length, objects their counter and their keys with ids in
stored order. The cache of lower-cased keys is not part of it. -/
inductive Info where
  | scalar (v : V)
  | arr (n : Nat)
  | obj (n : BitVec 32) (ks : List (Bytes × BitVec 32))

def info : V → Info
  | .obj n kvs _ => .obj n (kvs.map fun e => (e.key, e.id))
  | .arr xs => .arr xs.length
  | v => .scalar v

/-- two trees that show the same at every location -/
def SameObs (v w : V) : Prop := ∀ l, (v.at l).map info = (w.at l).map info

/-- the index of lower-cased keys lists exactly the keys of the object -/
def Coh (E : Env) (kvs : List Ent) : Low → Prop
  | none => True
  | some m => (m.map Prod.fst).Nodup ∧ ∀ l k, (∃ ks, (l, ks) ∈ m ∧ k ∈ ks) ↔ (k ∈ kvs.map Ent.key ∧ E.toLower k = l)

/-- an object node: its keys are distinct and its index, if any, is exact -/
def GoodNode (E : Env) : V → Prop
  | .obj _ kvs low => (kvs.map Ent.key).Nodup ∧ Coh E kvs low
  | _ => True

/-- a node that exists -/
def Solid (v : V) : Prop := v ≠ .nilp ∧ v ≠ .notExist

end Spec
