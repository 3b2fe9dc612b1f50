import Verif.Model.Heap
/-!
What a heap means: which tree hangs below a pointer and which objects it consists of, and which objects can be reached. Only the data types
of the model are used here; of its functions only `HOp.run`, one call of the API, to say what a program does.
-/
namespace Spec
open JV

/-- the pointers held by an object -/
def kids : Cell → List Ptr
  | .arr xs => xs
  | .obj _ kvs _ => kvs.map HEnt.v
  | _ => []

/-- the children of a tree node -/
def treeKids : V → List V
  | .arr xs => xs
  | .obj _ kvs _ => kvs.map Ent.v
  | _ => []

/-- an object and a tree node agree in everything but their children -/
def SameShape : Cell → V → Prop
  | .notExist, .notExist => True
  | .str s, .str t => s = t
  | .num s n, .num t m => s = t ∧ n = m
  | .bool b, .bool c => b = c
  | .null, .null => True
  | .arr _, .arr _ => True
  | .obj n kvs low, .obj m es low' => n = m ∧ low = low' ∧ kvs.map (fun e => (e.key, e.id)) = es.map (fun e => (e.key, e.id))
  | _, _ => False

mutual
/-- the tree `v` hangs below the pointer; `F` lists the objects it is made of, once for each place in the tree -/
inductive Hangs (h : Heap) : Ptr → V → List Nat → Prop
  | nil : Hangs h none .nilp []
  | node (a : Nat) (c : Cell) (v : V) (F : List Nat) : h[a]? = some c → SameShape c v → HangsL h (kids c) (treeKids v) F → Hangs h (some a) v (a :: F)
/-- the same for lists of pointers and trees -/
inductive HangsL (h : Heap) : List Ptr → List V → List Nat → Prop
  | nil : HangsL h [] [] []
  | cons (p : Ptr) (v : V) (F : List Nat) (ps : List Ptr) (vs : List V) (G : List Nat) :
    Hangs h p v F → HangsL h ps vs G → HangsL h (p :: ps) (v :: vs) (F ++ G)
end

/-- the pointer found under a step below an object -/
inductive ChildPtr (h : Heap) : Ptr → Step → Ptr → Prop
  | idx (a : Nat) (xs : List Ptr) (i : Nat) (q : Ptr) : h[a]? = some (.arr xs) → xs[i]? = some q → ChildPtr h (some a) (.idx i) q
  | key (a : Nat) (n kvs low) (k : Bytes) (e : HEnt) : h[a]? = some (.obj n kvs low) → kvs.find? (fun e => e.key = k) = some e → ChildPtr h (some a) (.key k) e.v

/-- the pointer found at a location -/
inductive Leads (h : Heap) : Ptr → List Step → Ptr → Prop
  | here (p : Ptr) : Leads h p [] p
  | step (p q r : Ptr) (s : Step) (l : List Step) : ChildPtr h p s q → Leads h q l r → Leads h p (s :: l) r

/-- `b` can be reached from `a` by following pointers -/
inductive Reaches (h : Heap) : Nat → Nat → Prop
  | refl (a : Nat) : Reaches h a a
  | step (a b c : Nat) (cell : Cell) : h[a]? = some cell → some b ∈ kids cell → Reaches h b c → Reaches h a c

/-- `b` can be reached from one of the children of `a` -/
def StrictlyBelow (h : Heap) (a b : Nat) : Prop := ∃ k cell, h[a]? = some cell ∧ some k ∈ kids cell ∧ Reaches h k b

/-- a node is found below one of its own children -/
def BelowItself (h : Heap) (a : Nat) : Prop := ∃ b cell, h[a]? = some cell ∧ some b ∈ kids cell ∧ Reaches h b a

/-- nothing is below itself -/
def Acyclic (h : Heap) : Prop := ∀ a, ¬ BelowItself h a

/-- a set of objects without pointers that lead out of it (every object of the set exists) -/
def SelfContained (h : Heap) (S : Nat → Prop) : Prop := ∀ a, S a → ∃ c, h[a]? = some c ∧ ∀ b, some b ∈ kids c → S b

/-- every object that was allocated holds pointers to allocated objects only -/
def Valid (h : Heap) : Prop := SelfContained h (· < h.length)
/-- the pointer is nil or leads to an allocated object -/
def ValidPtr (h : Heap) (p : Ptr) : Prop := ∀ a, p = some a → a < h.length

/-- everything that can be reached from the pointer is as it was -/
def SameBelow (h h' : Heap) (p : Ptr) : Prop := ∀ a b, p = some a → Reaches h a b → h'[b]? = h[b]?

/-- an object without its lower case index, which only speeds up caseless searches -/
def withoutLow : Cell → Cell
  | .obj n kvs _ => .obj n kvs none
  | c => c

/-- nothing but lower case indexes differs -/
def LowOnly (h h' : Heap) : Prop := h'.map withoutLow = h.map withoutLow

/-- What two parts of a program hold after any number of calls, when each part passes only pointers that it was given at the start or that its
own calls returned. -/
inductive TwoParts (E : Env) (h0 : Heap) (left right : List Ptr) : Heap → (Bool → List Ptr) → Prop
  | start : TwoParts E h0 left right h0 (fun part => if part then right else left)
  | call (h : Heap) (held : Bool → List Ptr) (part : Bool) (op : HOp) : TwoParts E h0 left right h held → (∀ p ∈ op.args, p ∈ held part) →
    TwoParts E h0 left right (op.run E h).1 (fun x => if x = part then (match (op.run E h).2 with | .ok p => [p] | _ => []) ++ held x else held x)

/-- What a program can build: it starts with nothing and passes only pointers that it got from earlier calls. -/
inductive Program (E : Env) : Heap → List Ptr → Prop
  | start : Program E [] []
  | call (h : Heap) (held : List Ptr) (op : HOp) : Program E h held → (∀ p ∈ op.args, p ∈ held) →
    Program E (op.run E h).1 ((match (op.run E h).2 with | .ok p => [p] | _ => []) ++ held)

/-- Programs in which a call that stores a child does not write to anything below that child: nothing is put below itself. The same value may
be stored in many places. -/
inductive Careful (E : Env) : Heap → List Ptr → Prop
  | start : Careful E [] []
  | call (h : Heap) (held : List Ptr) (op : HOp) : Careful E h held → (∀ p ∈ op.args, p ∈ held) → SameBelow h (op.run E h).1 op.child →
    Careful E (op.run E h).1 ((match (op.run E h).2 with | .ok p => [p] | _ => []) ++ held)

mutual
/-- the tree with every nil pointer replaced by a NotExist value and without lower case indexes -/
def copied : V → V
  | .nilp => .notExist
  | .arr xs => .arr (copiedL xs)
  | .obj n kvs _ => .obj n (copiedM kvs) none
  | v => v
def copiedL : List V → List V
  | [] => []
  | v :: vs => copied v :: copiedL vs
def copiedM : List Ent → List Ent
  | [] => []
  | .mk k i v :: es => .mk k i (copied v) :: copiedM es
end

theorem copiedL_map (vs : List V) : copiedL vs = vs.map copied := by
  induction vs with
  | nil => rfl
  | cons v vs ih => simp [copiedL, ih]
theorem copiedM_map (es : List Ent) : (copiedM es).map Ent.v = (es.map Ent.v).map copied := by
  induction es with
  | nil => rfl
  | cons e es ih => cases e; simp only [copiedM, List.map_cons, ih, Ent.v_mk]
theorem copiedM_keys (es : List Ent) : (copiedM es).map (fun e => (e.key, e.id)) = es.map (fun e => (e.key, e.id)) := by
  induction es with
  | nil => rfl
  | cons e es ih => cases e; simp only [copiedM, List.map_cons, ih, Ent.key_mk, Ent.id_mk]

end Spec
