import Verif.Model.ImportGraph
/-!
Which values Import has to look at, and the tree that they make up.
-/
namespace Spec
open JV

/-- the name a field has in JSON: that in the tag, or else its own; `-` means that it is left out -/
def jsonName (E : Env) (name tag : Bytes) : Bytes :=
  let t := E.trimSpace (tag.takeWhile (· ≠ 0x2C))
  if tag = [] ∨ t = [] then name else t

/-- a field is looked at: it is not left out by its tag, and it is embedded or exported and not below something unexported -/
def Looked (E : Env) (ro : RO) (f : GField) : Prop :=
  jsonName E f.name f.tag ≠ [0x2D] ∧ (f.anon = true ∨ ro.field false f.exported = .no)

instance (E : Env) (ro : RO) (f : GField) : Decidable (Looked E ro f) := inferInstanceAs (Decidable (_ ∧ _))

/-- from a value to one it refers to and that Import looks at; with each value whether it came through unexported fields -/
inductive Follows (E : Env) (h : GHeap) : RO × Nat → RO × Nat → Prop where
  | arr {ro : RO} {a b : Nat} {xs : List Nat} : h a = .arr xs → b ∈ xs → Follows E h (ro, a) (ro.elem, b)
  | slice {ro : RO} {a b : Nat} {xs : List Nat} : h a = .slice xs → b ∈ xs → Follows E h (ro, a) (ro.elem, b)
  | map {ro : RO} {a b : Nat} {k : GoKey} {kvs : List (GoKey × Nat)} : h a = .map kvs → (k, b) ∈ kvs → Follows E h (ro, a) (ro.elem, b)
  | ptr {ro : RO} {a b : Nat} : h a = .ptr b → Follows E h (ro, a) (ro, b)
  | iface {ro : RO} {a b : Nat} : h a = .iface b → Follows E h (ro, a) (ro.elem, b)
  | field {ro : RO} {a : Nat} {fs : List GField} {f : GField} : h a = .struct fs → f ∈ fs → Looked E ro f → Follows E h (ro, a) (ro.field f.anon f.exported, f.a)

/-- there is no end to following: in a program with finitely many values, a value refers to itself, directly or through others -/
def Endless (E : Env) (h : GHeap) (a : Nat) : Prop := ∃ f : Nat → RO × Nat, f 0 = (.no, a) ∧ ∀ i, Follows E h (f i) (f (i + 1))

/-- following `n` times -/
inductive Trail (E : Env) (h : GHeap) (s : RO × Nat) : RO × Nat → Nat → Prop where
  | here : Trail E h s s 0
  | step {t u : RO × Nat} {n : Nat} : Trail E h s t n → Follows E h t u → Trail E h s u (n + 1)

/-- the tree that can be seen from a value, cut at a depth; fields that are not looked at are cut off at once -/
def unfoldG (E : Env) (h : GHeap) : Nat → RO → Nat → GoVal
  | 0, _, _ => .invalid
  | n + 1, ro, a =>
    match h a with
    | .leaf x => x
    | .arr xs => .arr (xs.map (unfoldG E h n ro.elem))
    | .slice xs => .slice (xs.map (unfoldG E h n ro.elem))
    | .map kvs => .map (kvs.map fun p => ⟨p.1, unfoldG E h n ro.elem p.2⟩)
    | .ptr b => .ptr (unfoldG E h n ro b)
    | .iface b => .iface (unfoldG E h n ro.elem b)
    | .struct fs => .struct (fs.map fun f => ⟨f.name, f.tag, f.anon, f.exported, if Looked E ro f then unfoldG E h n (ro.field f.anon f.exported) f.a else .invalid⟩)

/-- the tree is complete at depth `n`: it does not change any more -/
def Complete (E : Env) (h : GHeap) (a n : Nat) : Prop := ∀ m, n ≤ m → unfoldG E h m .no a = unfoldG E h n .no a

end Spec
