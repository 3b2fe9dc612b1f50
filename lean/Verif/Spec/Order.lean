import Verif.Spec.Marshal
import Verif.Spec.History
import Verif.Spec.Json
/-!
The orders in which members are written or visited.
-/
namespace Spec
open JV

/-- byte strings in ascending order, as `strings.Compare` has it -/
inductive Asc : Bytes → Bytes → Prop
  | nil (b : UInt8) (t : Bytes) : Asc [] (b :: t)
  | head (a b : UInt8) (s t : Bytes) : a < b → Asc (a :: s) (b :: t)
  | tail (a : UInt8) (s t : Bytes) : Asc s t → Asc (a :: s) (a :: t)

/-- `i` is the last position of `k` in the list -/
def LastPos (seq : List Bytes) (k : Bytes) (i : Nat) : Prop := seq[i]? = some k ∧ ∀ j, i < j → seq[j]? ≠ some k

/-- the order of OptKeySequence(seq): listed keys by position, then the others in ascending order -/
def ListedBefore (seq : List Bytes) (k1 k2 : Bytes) : Prop :=
  (∃ i j, LastPos seq k1 i ∧ LastPos seq k2 j ∧ i < j) ∨ (k1 ∈ seq ∧ k2 ∉ seq) ∨ (k1 ∉ seq ∧ k2 ∉ seq ∧ Asc k1 k2)

/-- the members `es` stand in this order of keys -/
def KeyOrder (r : Bytes → Bytes → Prop) (_ : List Step) (_ es : List Ent) : Prop := es.Pairwise fun a b => r a.key b.key

/-- The same contents: scalars alike, arrays element by element, objects as maps. The order in which members were set, are stored or
iterated over does not matter. -/
inductive Same : V → V → Prop
  | scalar (v) : IsScalar v → Same v v
  | num (src n n') : src ≠ [] → Same (.num src n) (.num src n')
  | arr (xs ys : List V) : xs.length = ys.length → (∀ (i : Nat) x y, xs[i]? = some x → ys[i]? = some y → Same x y) → Same (.arr xs) (.arr ys)
  | obj (n kvs low n' kvs' low') : (∀ k, (members (.obj n kvs low) k).isSome = (members (.obj n' kvs' low') k).isSome) →
      (∀ k c c', members (.obj n kvs low) k = some c → members (.obj n' kvs' low') k = some c' → Same c c') → Same (.obj n kvs low) (.obj n' kvs' low')

/-! ### order of setting -/

/-- the value stored under a key in a list of pairs -/
def assoc (L : List (Bytes × V)) (k : Bytes) : Option V := (L.find? fun p => p.1 = k).map Prod.snd
def without (k : Bytes) (L : List (Bytes × V)) : List (Bytes × V) := L.filter fun p => p.1 ≠ k

/-- A history of operations on a list of members: setting a key moves it to the end, deleting takes it out. -/
inductive SeqRun (E : Env) : List (Bytes × V) → List ObjOp → List (Bytes × V) → Prop
  | nil (L) : SeqRun E L [] L
  | set (L k c ops L') : c.uninit = false → SeqRun E (without k L ++ [(k, c)]) ops L' → SeqRun E L (.set k c :: ops) L'
  | setBad (L k c ops L') : c.uninit = true → SeqRun E L ops L' → SeqRun E L (.set k c :: ops) L'
  | del (L k ops L') : SeqRun E (without k L) ops L' → SeqRun E L (.del k :: ops) L'
  | cdel (L k k' ops L') : Picks E (assoc L) k k' → SeqRun E (without k' L) ops L' → SeqRun E L (.cdel k :: ops) L'
  | cdelNone (L k ops L') : (∀ k', ¬ Picks E (assoc L) k k') → SeqRun E L ops L' → SeqRun E L (.cdel k :: ops) L'
  | get (L k ops L') : SeqRun E L ops L' → SeqRun E L (.get k :: ops) L'
  | cget (L k ops L') : SeqRun E L ops L' → SeqRun E L (.cget k :: ops) L'

/-- the number of calls of Set in a history -/
def setCount : List ObjOp → Nat
  | [] => 0
  | .set _ _ :: ops => setCount ops + 1
  | _ :: ops => setCount ops

/-- the members of the object at location `l` of `v` stand in the order in which they were last set, if the object was made by NewObject()
followed by any history of operations in which Set is called less than 2^32 times -/
def InSetOrder (E : Env) (v : V) (l : List Step) (_ es : List Ent) : Prop :=
  ∀ w ops, v.at l = some w → ObjRun E newObject ops w → setCount ops < 2 ^ 32 → SeqRun E [] ops (es.map fun e => (e.key, e.v))

/-- the value is built as if the members of every object of the document had been set one by one in the order of the text -/
inductive SetInOrder (E : Env) : J → V → Prop
  | null : SetInOrder E .null .null
  | bool (b) : SetInOrder E (.bool b) (.bool b)
  | num (t n) : SetInOrder E (.num t) (.num t n)
  | str (s) : SetInOrder E (.str s) (.str s)
  | arr (xs : List J) (vs : List V) : vs.length = xs.length → (∀ (i : Nat) x w, xs[i]? = some x → vs[i]? = some w → SetInOrder E x w) → SetInOrder E (.arr xs) (.arr vs)
  | obj (ms : List Mem) (ws : List V) : ws.length = ms.length → (∀ (i : Nat) m w, ms[i]? = some m → ws[i]? = some w → SetInOrder E m.v w) →
      SetInOrder E (.obj ms) (((ms.map Mem.key).zip ws).foldl (fun v p => ObjOp.run E v (.set p.1 p.2)) newObject)

/-- of the pairs with the same key only the last, where it stands -/
def lastOnes : List (Bytes × V) → List (Bytes × V)
  | [] => []
  | p :: l => if p.1 ∈ l.map Prod.fst then lastOnes l else p :: lastOnes l

/-! ### key paths -/

/-- the object at location `l` and the parent information name each other: at the root there is none, elsewhere the key path is the location -/
def Called (v : V) (p : Option ParentInfo) (a b : Ent) : Prop :=
  ∃ l n kvs low, v.at l = some (.obj n kvs low) ∧ InfoAt l p ∧ a ∈ kvs ∧ b ∈ kvs

/-- ... and `Parent` is what `ParentAt` says -/
def CalledWith (v : V) (p : Option ParentInfo) (a b : Ent) : Prop :=
  ∃ l n kvs low, v.at l = some (.obj n kvs low) ∧ InfoAt l p ∧ ParentAt v l p ∧ a ∈ kvs ∧ b ∈ kvs

/-- a less function is called with `Parent` set to the object `o` whose members are compared (none for the outermost value) -/
def OwnParent (v : V) (p : Option ParentInfo) (a b : Ent) : Prop :=
  ∃ l n kvs low, v.at l = some (.obj n kvs low) ∧ InfoAt l p ∧ (∀ q, p = some q → q.parent = .obj n kvs low) ∧ a ∈ kvs ∧ b ∈ kvs

/-- a key path element as text: an index as a decimal number, a key between quotes, escaped like a string -/
def KeyText (esc : Bytes → Bytes → Prop) (k : Step) (t : Bytes) : Prop :=
  match k with
  | .idx i => JInt false t t ∧ intVal false t = i
  | .key s => ∃ u, esc s u ∧ t = 0x22 :: (u ++ [0x22])

/-! ### iteration -/

/-- a callback is run on the elements of a list from the front, until it returns false -/
inductive Visits {σ α : Type} (f : σ → α → V → σ × Bool) : List (α × V) → σ → σ → Prop
  | nil (s) : Visits f [] s s
  | stop (k c l s s') : f s k c = (s', false) → Visits f ((k, c) :: l) s s'
  | go (k c l s s' s'') : f s k c = (s', true) → Visits f l s' s'' → Visits f ((k, c) :: l) s s''

end Spec
