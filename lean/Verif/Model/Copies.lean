import Verif.Spec.Copies
/-!
Variables of type `V` (jsonvalue.go:99-108) that were copied by assignment. The struct has no pointer to itself, so Go copies it field by field: `children.incrID`
and the slice header `children.arr` are copied, the maps `children.object` and `children.lowerCaseKeys` are shared from then on (jsonvalue.go:123-131).

What a call does to the variable it is made on is what the functions of Model/Access and Model/Modify do to the value; here is how the result is stored.
-/
namespace JV
open Spec

/-- jsonvalue.go:123-131 `children` of a variable that holds an object. `map` is the map behind `object`, `low` the one behind `lowerCaseKeys`, `none` for nil. -/
structure ObjVar where
  incr : BitVec 32
  map : Nat
  low : Option Nat

/-- all maps of the program and all variables -/
structure ObjMem where
  maps : List (List Ent)
  lows : List (List (Bytes × List Bytes))
  vars : List ObjVar

/-- the maps a variable has -/
def ObjMem.members (s : ObjMem) (h : ObjVar) : List Ent := s.maps.getD h.map []
def ObjMem.index (s : ObjMem) (h : ObjVar) : Low := h.low.map fun l => s.lows.getD l []

/-- the variable as a value -/
def ObjMem.load (s : ObjMem) (h : ObjVar) : V := .obj h.incr (s.members h) (s.index h)

/-- The value of variable `i` after a call on it. The maps are changed in place: set.go:169, get.go:64, insert_append_delete.go:527, 548, jsonvalue.go:165-193;
the only new map is the index made by get.go:60-68 `initCaselessStorage`, and it goes to the variable of the call. -/
def ObjMem.save (s : ObjMem) (i : Nat) (h : ObjVar) (n : BitVec 32) (kvs : List Ent) (low : Low) : ObjMem :=
  match h.low, low with
  | some l, some m => { maps := s.maps.set h.map kvs, lows := s.lows.set l m, vars := s.vars.set i { h with incr := n } }
  | none, some m => { maps := s.maps.set h.map kvs, lows := s.lows ++ [m], vars := s.vars.set i { h with incr := n, low := some s.lows.length } }
  | _, none => { s with maps := s.maps.set h.map kvs, vars := s.vars.set i { h with incr := n } }

/-- the value after a call, stored; the functions used here return objects for objects -/
def ObjMem.saveV (s : ObjMem) (i : Nat) (h : ObjVar) : V → ObjMem
  | .obj n kvs low => s.save i h n kvs low
  | _ => s

/-- One call: set.go:167-174 `setToObjectChildren`, insert_append_delete.go:524-556 `delFromObjectChildren`, get.go:70-96 `getFromObjectChildren`, and
jsonvalue.go:135-163 `deepCopy`, where the index is not copied. A member is changed through its pointer, which the map of every copy holds.
Simplified: the children of a deep copy are copies, too; as values they are the same. A call on a variable that does not exist cannot be written. -/
def ObjMem.step (E : Env) (s : ObjMem) (o : CopyOp) : ObjMem × CopyOut :=
  match s.vars[o.var]? with
  | none => (s, .missing)
  | some h =>
    let kvs := s.members h
    let low := s.index h
    match o with
    | .set i k c => (s.saveV i h (setKey E h.incr kvs low k c), .done)
    | .del i cl k =>
      let r := delKey E cl h.incr kvs low k
      (s.saveV i h r.1, if r.2 then .done else .missing)
    | .get i cl k =>
      let r := findKey E cl kvs low k
      (s.save i h h.incr kvs r.1, match r.2 with
        | some k' => match lookup k' kvs with
          | some e => .found e.v
          | none => .missing
        | none => .missing)
    | .sub i k f => match lookup k kvs with
      | some e => (s.save i h h.incr (putKey k (f e.v) kvs) low, .done)
      | none => (s, .missing)
    | .copy _ => ({ s with vars := s.vars ++ [h] }, .done)
    | .clone _ => ({ s with maps := s.maps ++ [kvs], vars := s.vars ++ [{ incr := h.incr, map := s.maps.length, low := none }] }, .done)

/-- a program -/
def ObjMem.run (E : Env) (s : ObjMem) : List CopyOp → ObjMem × List CopyOut
  | [] => (s, [])
  | o :: os =>
    let r := s.step E o
    let t := r.1.run E os
    (t.1, r.2 :: t.2)

/-- one variable with an object in it -/
def ObjMem.start (n : BitVec 32) (kvs : List Ent) (low : Low) : ObjMem :=
  { maps := [kvs], lows := low.toList, vars := [{ incr := n, map := 0, low := low.map fun _ => 0 }] }

/-! ## arrays -/

variable {α : Type}

/-- all backing arrays and all variables that hold an array: the array and the length of the slice `children.arr` -/
structure ArrMem (α : Type) where
  mem : List (List α)
  vars : List (Nat × Nat)

/-- the variable as Model/RangeMut has it -/
def ArrMem.load (s : ArrMem α) (h : Nat × Nat) : ArrV α := { mem := s.mem, arr := h.1, len := h.2 }

/-- a call on variable `i` (set.go:401-412, insert_append_delete.go:282-286, 627-632, sort.go:63-65): the arrays are changed in place, the slice
header of the variable is the only one that changes -/
def ArrMem.call [HasNil α] (grow : Nat → Nat) (s : ArrMem α) (i : Nat) (o : SliceOp α) : R (ArrMem α) :=
  match s.vars[i]? with
  | none => .panic
  | some h => do
    let b ← (s.load h).op grow o
    pure { mem := b.mem, vars := s.vars.set i (b.arr, b.len) }

/-- `w := vars[i]` -/
def ArrMem.copy (s : ArrMem α) (i : Nat) : R (ArrMem α) :=
  match s.vars[i]? with
  | none => .panic
  | some h => .ok { s with vars := s.vars ++ [h] }

end JV
