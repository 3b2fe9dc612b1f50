import Verif.Spec.Pool
/-!
What the garbage collector keeps while a program holds one value of a parsed document.

Go keeps a block of memory as a whole as long as there is a pointer into it. The blocks are here: the arena of the
call (one `make([]V, cnt)`), every `&V{}`, and the text the parser worked on (one `[]byte`).
-/
namespace JV
open Spec

/-- Whether a value holds a pointer into the text: a string is a substring of it (unmarshal.go:41, 132, 262-300), a
number keeps its digits as a subslice (unmarshal.go:839, 862, 885), an object has its keys as substrings
(unmarshal.go:250, 262). Simplified: an empty string counts too (its pointer is kept by the slice expression). -/
def NV.inText : NV → Bool
  | .leaf _ (.str _) => true
  | .leaf _ (.num _ _) => true
  | .obj _ _ (_ :: _) => true
  | _ => false

/-- what can be kept: the value at a position of the document, the arena, the text -/
inductive Thing where
  | value (q : List Nat)
  | arena
  | text

/-- `Keeps v p t`: while the program holds a pointer to the value at position `p` of the document `v` and nothing else
of it, `t` is not collected. The pointers are: the `children` of a value (jsonvalue.go:102-133); a value of the arena is
an element of it (jsonvalue_internal.go:89-90, 100-101), so it keeps the arena and the arena keeps all its elements;
and the text as `NV.inText`. Not modelled: the arena also keeps the values replaced by a later member of the same key,
which have no position. -/
inductive Keeps (v : NV) (p : List Nat) : Thing → Prop where
  | held {x : NV} (h : At v p x) : Keeps v p (.value p)
  | child {q : List Nat} {i : Nat} {x : NV} (hk : Keeps v p (.value q)) (h : At v (q ++ [i]) x) : Keeps v p (.value (q ++ [i]))
  | arena {q : List Nat} {x : NV} {i : Nat} (hk : Keeps v p (.value q)) (h : At v q x) (hn : nodeOf x = .slot i) : Keeps v p .arena
  | slot {q : List Nat} {x : NV} {i : Nat} (hk : Keeps v p .arena) (h : At v q x) (hn : nodeOf x = .slot i) : Keeps v p (.value q)
  | text {q : List Nat} {x : NV} (hk : Keeps v p (.value q)) (h : At v q x) (ht : x.inText = true) : Keeps v p .text

mutual
/-- jsonvalue.go:496-526 `deepCopy`, reached by `Import` of a `*V` (import_export.go:196-198): every node is a new
`&V{}`; the string, the digits and (jsonvalue.go:150-156) the keys are the same substrings. `h` numbers the `&V{}`. -/
def NV.copy : NV → Nat → NV × Nat
  | .leaf _ w, h => (.leaf (.fresh h) w, h + 1)
  | .arr _ xs, h => (.arr (.fresh h) (NV.copyL xs (h + 1)).1, (NV.copyL xs (h + 1)).2)
  | .obj _ c kvs, h => (.obj (.fresh h) c (NV.copyM kvs (h + 1)).1, (NV.copyM kvs (h + 1)).2)
/-- jsonvalue.go:141-145 -/
def NV.copyL : List NV → Nat → List NV × Nat
  | [], h => ([], h)
  | x :: xs, h => ((x.copy h).1 :: (NV.copyL xs (x.copy h).2).1, (NV.copyL xs (x.copy h).2).2)
/-- jsonvalue.go:149-157 -/
def NV.copyM : List (Bytes × BitVec 32 × NV) → Nat → List (Bytes × BitVec 32 × NV) × Nat
  | [], h => ([], h)
  | (k, i, x) :: r, h => ((k, i, (x.copy h).1) :: (NV.copyM r (x.copy h).2).1, (NV.copyM r (x.copy h).2).2)
end

end JV
