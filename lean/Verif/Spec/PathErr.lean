import Verif.Spec.Path
/-!
What is wrong with a path.
-/
namespace Spec
open JV

/-- parameter `p` leads from `v` to its child `c` -/
inductive Reach1 : V → Param → V → Prop
  | key (n kvs low k c) : (V.obj n kvs low).child (.key k) = some c → Reach1 (.obj n kvs low) (.str k) c
  | idx (xs p z i c) : intOf p = some z → index (List.length xs) z = some i → (V.arr xs).child (.idx i) = some c → Reach1 (.arr xs) p c

/-- a parameter of a kind that does not fit the value, whatever is in it -/
inductive Unfit : V → Param → Err → Prop
  | notKey (n kvs low p) : (∀ k, p ≠ .str k) → Unfit (.obj n kvs low) p .parameterError
  | nilIndex (xs) : Unfit (.arr xs) .nil .parameterError
  | notIndex (xs p) : intOf p = none → p ≠ .nil → Unfit (.arr xs) p .other
  | scalar (v p) : v ≠ .nilp → (∀ xs, v ≠ .arr xs) → (∀ n kvs low, v ≠ .obj n kvs low) → Unfit v p .other

/-- a parameter of a fitting kind that nothing is stored under -/
inductive Missing : V → Param → Err → Prop
  | key (n kvs low k) : (V.obj n kvs low).child (.key k) = none → Missing (.obj n kvs low) (.str k) .notFound
  | idx (xs p z) : intOf p = some z → index (List.length xs) z = none → Missing (.arr xs) p .outOfRange

/-- The path cannot be followed to its end: at the first parameter that is unfit or that nothing is stored under. -/
inductive GetFails : V → List Param → Err → Prop
  | unfit (v p ps e) : Unfit v p e → GetFails v (p :: ps) e
  | missing (v p ps e) : Missing v p e → GetFails v (p :: ps) e
  | there (v p c ps e) : Reach1 v p c → GetFails c ps e → GetFails v (p :: ps) e

/-- Containers cannot be made for these parameters: all must be keys or the index 0. -/
inductive MakeFails : List Param → Err → Prop
  | index (p ps z) : intOf p = some z → z ≠ 0 → MakeFails (p :: ps) .outOfRange
  | kind (p ps) : (∀ k, p ≠ .str k) → intOf p = none → MakeFails (p :: ps) .other
  | key (k ps e) : MakeFails ps e → MakeFails (.str k :: ps) e
  | zero (p ps e) : intOf p = some 0 → MakeFails ps e → MakeFails (p :: ps) e

/-- A value cannot be set at the path: it goes through a value that does not exist, a parameter is unfit, the last one is an index that is neither in
the array nor right behind it, or containers cannot be made for the rest of the path. -/
inductive SetFails : V → List Param → Err → Prop
  | uninit (v p ps) : ¬ Solid v → SetFails v (p :: ps) .valueUninitialized
  | unfit (v p ps e) : v ≠ .notExist → Unfit v p e → SetFails v (p :: ps) e
  | range (xs p z) : intOf p = some z → index (List.length xs) z = none → z ≠ List.length xs → SetFails (.arr xs) [p] .outOfRange
  | make (v p q ps e e') : Missing v p e' → MakeFails (q :: ps) e → SetFails v (p :: q :: ps) e
  | there (v p c q ps e) : Reach1 v p c → SetFails c (q :: ps) e → SetFails v (p :: q :: ps) e

/-- the path cannot be followed to its end, or what is there is not an array -/
inductive ArrayFails : V → List Param → Err → Prop
  | path (v ps e) : GetFails v ps e → ArrayFails v ps e
  | type (v ps l c) : Addr v ps l → v.at l = some c → c ≠ .nilp → (∀ xs, c ≠ .arr xs) → ArrayFails v ps .typeNotMatch

/-- An element cannot be inserted before or after the place given by the path: what stands before the last parameter does not lead to an array (if it is
only one parameter: the value itself is none), or the last parameter is not the index of an element. -/
inductive InsertFails : V → List Param → Err → Prop
  | uninit (v ps) : ¬ Solid v → InsertFails v ps .valueUninitialized
  | self (v p) : Solid v → (∀ xs, v ≠ .arr xs) → InsertFails v [p] .notArrayValue
  | selfIndex (xs p e) : Unfit (.arr xs) p e ∨ Missing (.arr xs) p e → InsertFails (.arr xs) [p] e
  | array (v q qs p e) : Solid v → ArrayFails v (q :: qs) e → InsertFails v (q :: qs ++ [p]) e
  | index (v q qs p e l xs) : Addr v (q :: qs) l → v.at l = some (.arr xs) → Unfit (.arr xs) p e ∨ Missing (.arr xs) p e → InsertFails v (q :: qs ++ [p]) e

/-- An element cannot be appended: the path does not lead to an array, and not because of a missing key, or it cannot be made there. -/
inductive AppendFails : V → List Param → Err → Prop
  | uninit (v ps) : ¬ Solid v → AppendFails v ps .valueUninitialized
  | self (v) : Solid v → (∀ xs, v ≠ .arr xs) → AppendFails v [] .notArrayValue
  | array (v p ps e) : Solid v → ArrayFails v (p :: ps) e → e ≠ .notFound → AppendFails v (p :: ps) e
  | make (v p ps e) : Solid v → GetFails v (p :: ps) .notFound → SetFails v (p :: ps) e → AppendFails v (p :: ps) e

end Spec
