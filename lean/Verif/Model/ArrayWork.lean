import Verif.Model.RangeMut
/-!
The elements (pointers to children) written while an array is changed: by an assignment, by `copy`, and by `append` when
it takes a new backing array. The rest of a call (finding the array, checking the position) does not depend on the
length of the array and is not counted; nor is the clearing of the new backing array by the allocator.
-/
namespace JV

variable {α : Type}

/-- set.go:407, unmarshal.go:168-173, insert_append_delete.go:283: `append` of one element -/
def ArrV.appendW (a : ArrV α) : Nat := if a.len < a.cells.length then 1 else a.len + 1

/-- One change. insert_append_delete.go:282-286: `append`, then `copy(arr[pos+1:], arr[pos:])` on the longer slice, then one
assignment; 627-632: an assignment, then `copy(arr[pos:], arr[pos+1:])`; set.go:409; sort.go:63-65. -/
def ArrV.opW (a : ArrV α) : SliceOp α → Nat
  | .append _ => a.appendW
  | .set _ _ => 1
  | .insert pos _ => a.appendW + min (a.len + 1 - (pos + 1)) (a.len + 1 - pos) + 1
  | .delete pos => 1 + min (a.len - pos) (a.len - (pos + 1))
  | .swap _ _ => 2

/-- some of them, one after the other, up to a panic -/
def ArrV.opsW [HasNil α] (grow : Nat → Nat) (a : ArrV α) : List (SliceOp α) → Nat
  | [] => 0
  | o :: os => a.opW o +
    match a.op grow o with
    | .ok b => b.opsW grow os
    | _ => 0

end JV
