import Verif.Spec.RangeMut
/-!
What an array keeps in memory. The garbage collector follows every pointer in the backing array of a slice, also those behind the last element, which no
call of the library shows. An array that was left behind when `append` made a bigger one is not reachable any more.
-/
namespace Spec
open JV
variable {α : Type}

/-- the cells behind the last element -/
def spare (a : ArrV α) : List α := a.cells.drop a.len

/-- `Leaves nil o xs sp sp'`: with the elements `xs` and the pointers `sp` behind them, the operation `o` leaves `sp'` behind the elements it makes -/
inductive Leaves (nil : α) : SliceOp α → List α → List α → List α → Prop where
  | set (p : Nat) (x : α) (xs sp : List α) : Leaves nil (.set p x) xs sp sp
  | swap (p q : Nat) (xs sp : List α) : Leaves nil (.swap p q) xs sp sp
  /-- the new element takes the first cell -/
  | appendRoom (x y : α) (xs sp : List α) : Leaves nil (.append x) xs (y :: sp) sp
  | insertRoom (p : Nat) (x y : α) (xs sp : List α) : Leaves nil (.insert p x) xs (y :: sp) sp
  /-- there is no cell left, the elements move to another array -/
  | appendNew (x : α) (xs : List α) (k : Nat) : Leaves nil (.append x) xs [] (List.replicate k nil)
  | insertNew (p : Nat) (x : α) (xs : List α) (k : Nat) : Leaves nil (.insert p x) xs [] (List.replicate k nil)
  /-- the last element is wiped out -/
  | pop (p : Nat) (xs sp : List α) : p + 1 = xs.length → Leaves nil (.delete p) xs sp (nil :: sp)
  /-- any other is overwritten by the next one, and the last one is there twice -/
  | delete (p : Nat) (z : α) (xs sp : List α) : p + 1 < xs.length → xs.getLast? = some z → Leaves nil (.delete p) xs sp (z :: sp)

/-- the same for a program; `ys` are the elements at its end -/
inductive LeavesAll (nil : α) : List (SliceOp α) → List α → List α → List α → List α → Prop where
  | done (xs sp : List α) : LeavesAll nil [] xs sp xs sp
  | step {o : SliceOp α} {os : List (SliceOp α)} {xs ys zs sp sp' sp'' : List α} : listOp o xs = .ok ys → Leaves nil o xs sp sp' →
      LeavesAll nil os ys sp' zs sp'' → LeavesAll nil (o :: os) xs sp zs sp''

/-- programs on an array of `n` elements that delete none but the last one of the moment -/
def PopsOnly : List (SliceOp α) → Nat → Prop
  | [], _ => True
  | .append _ :: os, n => PopsOnly os (n + 1)
  | .insert _ _ :: os, n => PopsOnly os (n + 1)
  | .delete p :: os, n => p + 1 = n ∧ PopsOnly os (n - 1)
  | _ :: os, n => PopsOnly os n

/-- how many elements a program deletes -/
def deletions : List (SliceOp α) → Nat
  | [] => 0
  | .delete _ :: os => deletions os + 1
  | _ :: os => deletions os

/-- on an array of `2 * m` elements: the first one and the last one, by turns -/
def bothEnds : Nat → List (SliceOp α)
  | 0 => []
  | m + 1 => .delete 0 :: .delete (2 * m) :: bothEnds m

end Spec
