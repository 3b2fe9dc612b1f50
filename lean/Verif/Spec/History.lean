import Verif.Model.Modify
import Verif.Model.Parse
import Verif.Model.Iterate
import Verif.Model.Import
import Verif.Spec.Path
/-!
Histories of public calls, and what they should look like from outside.
-/
namespace Spec
open JV

def IsScalar : V → Prop
  | .obj _ _ _ => False
  | .arr _ => False
  | _ => True

/-- the same index of lower-cased keys, in any iteration order of its maps -/
def SameLow : Low → Low → Prop
  | none, none => True
  | some m, some m' => (m.map Prod.fst).Perm (m'.map Prod.fst) ∧ ∀ l k, (∃ ks, (l, ks) ∈ m ∧ k ∈ ks) ↔ (∃ ks, (l, ks) ∈ m' ∧ k ∈ ks)
  | _, _ => False

/-- the same object; its Go maps may be iterated in any order, and in another order each time -/
inductive Reorder : V → V → Prop
  | mk (n kvs kvs' low low') : List.Perm kvs kvs' → SameLow low low' → Reorder (.obj n kvs low) (.obj n kvs' low')

/-- Values that can be built by public calls from scalars satisfying `L`, with any arguments and in any order. A call on a child obtained
from a document is covered by `inner`. (Values are trees here: that one `*V` may sit in two places is the subject of another model.) -/
inductive Built (E : Env) (L : V → Prop) : V → Prop
  | scalar (v) : IsScalar v → L v → Built E L v
  | parsed (s v) : unmarshal E s = .ok v → Built E L v
  | object : Built E L newObject
  | array : Built E L newArray
  | set (v ch ps) : Built E L v → Built E L ch.c → Built E L (set E v ch ps).1
  | insert (after v ch ps) : Built E L v → Built E L ch.c → Built E L (insert E after v ch ps).1
  | append (beg v ch ps) : Built E L v → Built E L ch.c → Built E L (append E beg v ch ps).1
  | delete (cl v ps) : Built E L v → Built E L (delete E cl v ps).1
  | read (cl v ps) : Built E L v → Built E L (getC E cl v ps).1
  | child (v l c) : Built E L v → v.at l = some c → Built E L c
  | inner (v l c d) : Built E L v → v.at l = some c → Built E L d → Built E L (replace v l d)
  | reorder (v w) : Built E L v → Reorder v w → Built E L w
  | sort (S v less w) : Built E L v → sortArray S v less = .ok w → Built E L w
  | copy (v) : Built E L v → v ≠ .nilp → Built E L (deepCopy v)

/-- anything -/
def Any (_ : V) : Prop := True

/-! ## keys without regard to case -/

/-- in the map `M`, asking for `k` without regard to case picks `k'` -/
def Picks (E : Env) (M : Bytes → Option V) (k k' : Bytes) : Prop :=
  (M k').isSome = true ∧ (k' = k ∨ M k = none ∧ E.toLower k' = E.toLower k)

/-- the members of an object -/
def members (v : V) (k : Bytes) : Option V := v.child (.key k)

/-- one caseless step -/
inductive CStep (E : Env) : V → Param → Step → Prop
  | key (n kvs low k k') : Picks E (members (.obj n kvs low)) k k' → CStep E (.obj n kvs low) (.str k) (.key k')
  | idx (xs p z i) : intOf p = some z → index (List.length xs) z = some i → CStep E (.arr xs) p (.idx i)

/-- a caseless path, taken step by step -/
inductive CAddr (E : Env) : V → List Param → List Step → Prop
  | nil (v) : CAddr E v [] []
  | cons (v p s c ps l) : CStep E v p s → v.child s = some c → CAddr E c ps l → CAddr E v (p :: ps) (s :: l)

/-- the object or array after the member or element `s` has been taken out of it -/
inductive Taken : V → Step → V → Prop
  | key (n kvs low kvs' low' k) : (∀ x, members (.obj n kvs' low') x = if x = k then none else members (.obj n kvs low) x) →
      Taken (.obj n kvs low) (.key k) (.obj n kvs' low')
  | idx (xs : List V) (i) : i < xs.length → Taken (.arr xs) (.idx i) (.arr (xs.eraseIdx i))

/-! ## an object as a map -/

inductive ObjOp where
  | set (k : Bytes) (c : V)
  | del (k : Bytes)
  | cdel (k : Bytes)
  | get (k : Bytes)
  | cget (k : Bytes)

/-- the calls -/
def ObjOp.run (E : Env) (v : V) : ObjOp → V
  | .set k c => (JV.set E v { c := c } [.str k]).1
  | .del k => (delete E false v [.str k]).1
  | .cdel k => (delete E true v [.str k]).1
  | .get k => (getC E false v [.str k]).1
  | .cget k => (getC E true v [.str k]).1

/-- one after the other, the maps being iterated in any order in between -/
inductive ObjRun (E : Env) : V → List ObjOp → V → Prop
  | nil (v) : ObjRun E v [] v
  | cons (v op ops w) : ObjRun E (op.run E v) ops w → ObjRun E v (op :: ops) w
  | reorder (v v' ops w) : Reorder v v' → ObjRun E v' ops w → ObjRun E v ops w

/-- the same history on a map. Setting nil or a NotExist value is refused. A caseless delete may pick any member that matches. -/
inductive MapRun (E : Env) : (Bytes → Option V) → List ObjOp → (Bytes → Option V) → Prop
  | nil (M) : MapRun E M [] M
  | set (M k c ops M') : c.uninit = false → MapRun E (fun x => if x = k then some c else M x) ops M' → MapRun E M (.set k c :: ops) M'
  | setBad (M k c ops M') : c.uninit = true → MapRun E M ops M' → MapRun E M (.set k c :: ops) M'
  | del (M k ops M') : MapRun E (fun x => if x = k then none else M x) ops M' → MapRun E M (.del k :: ops) M'
  | cdel (M k k' ops M') : Picks E M k k' → MapRun E (fun x => if x = k' then none else M x) ops M' → MapRun E M (.cdel k :: ops) M'
  | cdelNone (M k ops M') : (∀ k', ¬ Picks E M k k') → MapRun E M ops M' → MapRun E M (.cdel k :: ops) M'
  | get (M k ops M') : MapRun E M ops M' → MapRun E M (.get k :: ops) M'
  | cget (M k ops M') : MapRun E M ops M' → MapRun E M (.cget k :: ops) M'

/-- the operation may concern member `k` -/
def ObjOp.touches (E : Env) (k : Bytes) : ObjOp → Prop
  | .set k' c => k' = k ∧ c.uninit = false
  | .del k' => k' = k
  | .cdel k' => E.toLower k = E.toLower k' ∨ k = k'
  | _ => False

/-! ## an array as a list -/

inductive ArrOp where
  | set (z : BitVec 64) (c : V)
  | insert (after : Bool) (z : BitVec 64) (c : V)
  | append (beg : Bool) (c : V)
  | del (z : BitVec 64)
  | get (z : BitVec 64)

def ArrOp.run (E : Env) (v : V) : ArrOp → V
  | .set z c => (JV.set E v { c := c } [.int z]).1
  | .insert after z c => (JV.insert E after v { c := c } [.int z]).1
  | .append beg c => (JV.append E beg v { c := c } []).1
  | .del z => (delete E false v [.int z]).1
  | .get z => (getC E false v [.int z]).1

/-- the same on a list; operations outside the list change nothing -/
def ArrOp.list (xs : List V) : ArrOp → List V
  | .set z c =>
    if c.uninit then xs else if z.toInt = xs.length then xs ++ [c]
    else match index xs.length z.toInt with
      | some i => xs.set i c
      | none => xs
  | .insert after z c => match index xs.length z.toInt with
    | some i => xs.insertIdx (if after then i + 1 else i) c
    | none => xs
  | .append beg c => if beg then c :: xs else xs ++ [c]
  | .del z => match index xs.length z.toInt with
    | some i => xs.eraseIdx i
    | none => xs
  | .get _ => xs

end Spec
