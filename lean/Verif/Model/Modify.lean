import Verif.Model.Access
/-!
Changing a value: Set, Insert, Append, Delete. Every operation returns the receiver's tree afterwards, also when it fails, together
with its result. The result of Set/Insert/Append is the stored child; the model gives its location in the tree.
-/
namespace JV

/-- A child argument after `Set(child)`, `Insert(child)` or `Append(child)` converted it (set.go:49-66,
insert_append_delete.go:70-86, 311-328): nil becomes null, a `*V` is kept as it is, anything else goes through Import, which may fail
(then the value is `&V{}`). -/
structure Ch where
  c : V
  err : Option Err := none

/-- `nil == v || v.valueType == NotExist` -/
def V.uninit : V → Bool
  | .nilp => true
  | .notExist => true
  | _ => false

/-- set.go:167-174 `setToObjectChildren` -/
def setKey (E : Env) (n : BitVec 32) (kvs : List Ent) (low : Low) (k : Bytes) (c : V) : V :=
  .obj (n + 1) (assign ⟨k, n + 1, c⟩ kvs) (addCaseless E low k)

/-- what a nil pointer is: `V.nilp` in trees, `none` in the heap model (Model/Heap) -/
class HasNil (α : Type) where
  nilv : α

instance : HasNil V := ⟨.nilp⟩

/-- set.go:314-320 `posAtIndexForSet` and set.go:401-412 `setAtIndex`: the array afterwards and where the child is -/
def setAtIndex {α : Type} (xs : List α) (c : α) (pos : Int) : R (List α × Nat) :=
  if pos = xs.length then .ok (xs ++ [c], xs.length)
  else
    let pos := posForRead xs.length pos
    if pos < 0 then .err .outOfRange
    else if pos.toNat < xs.length then .ok (xs.set pos.toNat c, pos.toNat) else .panic

/-- set.go:214-241 `atLastParam` -/
def atLastParam (E : Env) (v c : V) (p : Param) : V × R (List Step) :=
  match v with
  | .obj n kvs low =>
    match anyToString p with
    | .ok k => (setKey E n kvs low k c, .ok [.key k])
    | .err e => (v, .err e)
    | _ => (v, .panic)
  | .arr xs =>
    match anyToInt p with
    | .ok pos =>
      match setAtIndex xs c pos with
      | .ok (ys, i) => (.arr ys, .ok [.idx i])
      | .err e => (v, .err e)
      | _ => (v, .panic)
    | .err e => (v, .err e)
    | _ => (v, .panic)
  | _ => (v, .err .other)

/-- set.go:252-262, 288-299: the container created for a missing step, chosen by the next parameter -/
def newContainer (next : Param) : R V :=
  match anyToString next with
  | .ok _ => .ok newObject
  | _ => match anyToInt next with
    | .ok i => if i ≠ 0 then .err .outOfRange else .ok newArray
    | _ => .err .other

mutual
/-- set.go:176-212 `At` with a single parameter -/
def setAt1 (E : Env) (v c : V) : Param → V × R (List Step)
  | .slice qs =>
    if qs.isEmpty then
      if v.uninit || c.uninit then (v, .err .valueUninitialized) else atLastParam E v c .nil
    else setAt E v c qs
  | p => if v.uninit || c.uninit then (v, .err .valueUninitialized) else atLastParam E v c p
termination_by structural p => p
/-- set.go:176-212 `At`, with `atObject` (243-275) and `atArray` (277-312). Result: the tree and the location of the child `c`. -/
def setAt (E : Env) (v c : V) : List Param → V × R (List Step)
  | [] => (v, .panic)
  | p :: rest =>
    match rest with
    | [] => setAt1 E v c p
    | next :: _ =>
      if p.isSlice then (v, .err .multipleParam)
      else if v.uninit || c.uninit then (v, .err .valueUninitialized)
      else match v with
      | .obj n kvs low =>
        match anyToString p with
        | .ok k =>
          match lookup k kvs with
          | some e =>
            let r := setAt E e.v c rest
            (v.put (.key k) r.1, do let l ← r.2; pure (.key k :: l))
          | none =>
            match newContainer next with
            | .ok child =>
              let r := setAt E child c rest
              match r.2 with
              | .ok l => (setKey E n kvs low k r.1, .ok (.key k :: l))
              | .err e => (v, .err e)
              | .panic => (v, .panic)
              | .diverge => (v, .diverge)
            | .err e => (v, .err e)
            | _ => (v, .panic)
        | .err e => (v, .err e)
        | _ => (v, .panic)
      | .arr xs =>
        match anyToInt p with
        | .ok pos =>
          let i := posForRead xs.length pos
          if i < 0 then
            match newContainer next with
            | .ok child =>
              let r := setAt E child c rest
              match r.2 with
              | .ok l => (.arr (xs ++ [r.1]), .ok (.idx xs.length :: l))
              | .err e => (v, .err e)
              | .panic => (v, .panic)
              | .diverge => (v, .diverge)
            | .err e => (v, .err e)
            | _ => (v, .panic)
          else match xs[i.toNat]? with
            | some child =>
              let r := setAt E child c rest
              (v.put (.idx i.toNat) r.1, do let l ← r.2; pure (.idx i.toNat :: l))
            | none => (v, .panic)
        | .err e => (v, .err e)
        | _ => (v, .panic)
      | _ => (v, .err .other)
termination_by structural ps => ps
end

/-- `v.Set(child).At(params...)`; set.go:177-179 an Import error of the child is reported first -/
def set (E : Env) (v : V) (ch : Ch) (ps : List Param) : V × R (List Step) :=
  match ch.err with
  | some e => (v, .err e)
  | none => setAt E v ch.c ps

/-- set.go:322-345 `posAtIndexForInsertBefore` -/
def posForInsertBefore (le : Nat) (pos : Int) : Int :=
  if le = 0 then -1
  else if pos = 0 then 0
  else if pos < 0 then
    let pos := pos + le
    if pos < 0 then -1 else pos
  else if pos ≥ le then -1
  else pos

/-- set.go:347-370 `posAtIndexForInsertAfter` -/
def posForInsertAfter (le : Nat) (pos : Int) : Int × Bool :=
  if le = 0 then (-1, false)
  else if pos = -1 then (le, true)
  else if pos < 0 then
    let pos := pos + le
    if pos < 0 then (-1, false) else (pos + 1, false)
  else if pos ≥ le then (-1, false)
  else (pos + 1, false)

/-- `copy(dst[off:], src)` inside one array: overwrite from `off` on -/
def copyAt {α : Type} (xs : List α) (off : Nat) (src : List α) : List α := xs.take off ++ src.take (xs.length - off) ++ xs.drop (off + src.length)

/-- insert_append_delete.go:282-286 `insertToArr`; the slice expressions panic beyond the length -/
def insertToArr {α : Type} [HasNil α] (xs : List α) (pos : Nat) (c : α) : R (List α) :=
  let ys := xs ++ [HasNil.nilv]
  if pos + 1 ≤ ys.length then
    let zs := copyAt ys (pos + 1) (ys.drop pos)
    if pos < zs.length then .ok (zs.set pos c) else .panic
  else .panic

/-- insert_append_delete.go:198-212 (Before) and 247-265 (After): the last parameter, on the array itself -/
def insertLast (after : Bool) (v c : V) (p : Param) : V × R (List Step) :=
  match v with
  | .nilp => if after then (v, .err .valueUninitialized) else (v, .panic)
  | .notExist => (v, .err .valueUninitialized)
  | .arr xs =>
    match anyToInt p with
    | .ok pos =>
      let q := if after then posForInsertAfter xs.length pos else (posForInsertBefore xs.length pos, false)
      if q.1 < 0 then (v, .err .outOfRange)
      else if q.2 then (.arr (xs ++ [c]), .ok [.idx xs.length])
      else match insertToArr xs q.1.toNat c with
        | .ok ys => (.arr ys, .ok [.idx q.1.toNat])
        | _ => (v, .panic)
    | .err e => (v, .err e)
    | _ => (v, .panic)
  | _ => (v, .err .notArrayValue)

/-- get.go:358-371 `getArray` with its location -/
def locArray (E : Env) (v : V) (ps : List Param) : R (List Step) :=
  match (resolve E false v ps).2 with
  | .ok l => match v.at l with
    | some (.arr _) => .ok l
    | some .nilp => .panic
    | some _ => .err .typeNotMatch
    | none => .panic
  | .err e => .err e
  | .panic => .panic
  | .diverge => .diverge

/-- put the location of the array in front of the location of the child -/
def prefixLoc (l : List Step) (r : V × R (List Step)) : V × R (List Step) := (r.1, do let m ← r.2; pure (l ++ m))

mutual
/-- insert_append_delete.go:180-227 `Before`, 229-280 `After` with a single parameter -/
def insertAt1 (E : Env) (after : Bool) (v c : V) : Param → V × R (List Step)
  | .slice qs => if qs.isEmpty then insertLast after v c .nil else insertAt E after v c [] qs
  | p => insertLast after v c p
termination_by structural p => p
/-- the same for `pre ++ ps`; all parameters but the last address the array (`GetArray`) -/
def insertAt (E : Env) (after : Bool) (v c : V) (pre : List Param) : List Param → V × R (List Step)
  | [] => (v, .panic)
  | p :: rest =>
    if !rest.isEmpty then insertAt E after v c (pre ++ [p]) rest
    else match pre with
    | [] => insertAt1 E after v c p
    | first :: _ =>
      if first.isSlice then (v, .err .multipleParam)
      else match v with
      | .nilp => if after then (v, .err .valueUninitialized) else (v, .panic)
      | .notExist => (v, .err .valueUninitialized)
      | v => match locArray E v pre with
        | .ok l => prefixLoc l (v.modify (fun a => insertAt1 E after a c p) l)
        | .err e => (v, .err e)
        | .panic => (v, .panic)
        | .diverge => (v, .diverge)
termination_by structural ps => ps
end

/-- `v.Insert(child).Before(params...)` / `.After(params...)` -/
def insert (E : Env) (after : Bool) (v : V) (ch : Ch) (ps : List Param) : V × R (List Step) :=
  match ch.err with
  | some e => (v, .err e)
  | none => insertAt E after v ch.c [] ps

/-- unmarshal.go:168-173 `appendToArr`, and insert_append_delete.go:444-448, 470-474: at the beginning of an empty array too.
Called on arrays only; on any other value the code would write the `arr` field of that value. -/
def appendTo (beginning : Bool) (v c : V) : V × R (List Step) :=
  match v with
  | .arr xs =>
    if beginning && !xs.isEmpty then
      match insertToArr xs 0 c with
      | .ok ys => (.arr ys, .ok [.idx 0])
      | _ => (v, .panic)
    else (.arr (xs ++ [c]), .ok [.idx xs.length])
  | .nilp => (v, .panic)
  | v => (v, .ok [])

/-- insert_append_delete.go:455-475, 505-519: `GetArray(params...)`; if the path is missing, `SetArray().At(params...)`; then add -/
def appendPath (E : Env) (beg : Bool) (v c : V) (ps : List Param) : V × R (List Step) :=
  match locArray E v ps with
  | .ok l => prefixLoc l (v.modify (fun a => appendTo beg a c) l)
  | .err .notFound =>
    match setAt E v newArray ps with
    | (v, .ok l) => prefixLoc l (v.modify (fun a => appendTo beg a c) l)
    | (v, .err e) => (v, .err e)
    | (v, .panic) => (v, .panic)
    | (v, .diverge) => (v, .diverge)
  | .err e => (v, .err e)
  | .panic => (v, .panic)
  | .diverge => (v, .diverge)

mutual
/-- insert_append_delete.go:430-475, 480-520 with a single parameter; conv.go:186-201 `isSliceAndExtractJointParams` takes a slice apart -/
def appendAt1 (E : Env) (beg : Bool) (v c : V) : Param → V × R (List Step)
  | .slice qs => appendAt E beg v c qs
  | p => appendPath E beg v c [p]
termination_by structural p => p
/-- insert_append_delete.go:430-475 `InTheBeginning`, 480-520 `InTheEnd`. The error kept by `Append` is never looked at. -/
def appendAt (E : Env) (beg : Bool) (v c : V) : List Param → V × R (List Step)
  | [] =>
    match v with
    | .nilp => if beg then (v, .err .valueUninitialized) else (v, .panic)
    | .notExist => (v, .err .valueUninitialized)
    | .arr xs => appendTo beg (.arr xs) c
    | v => (v, .err .notArrayValue)
  | p :: rest =>
    match v with
    | .nilp => if beg then (v, .err .valueUninitialized) else (v, .panic)
    | .notExist => (v, .err .valueUninitialized)
    | v =>
      if p.isSlice && !rest.isEmpty then (v, .err .multipleParam)
      else if p.isSlice then appendAt1 E beg v c p
      else appendPath E beg v c (p :: rest)
termination_by structural ps => ps
end

/-- `v.Append(child).InTheBeginning(params...)` (`beg`) / `.InTheEnd(params...)` -/
def append (E : Env) (beg : Bool) (v : V) (ch : Ch) (ps : List Param) : V × R (List Step) := appendAt E beg v ch.c ps

/-- insert_append_delete.go:524-556 `delFromObjectChildren`: the object afterwards, and whether something was deleted -/
def delKey (E : Env) (cl : Bool) (n : BitVec 32) (kvs : List Ent) (low : Low) (key : Bytes) : V × Bool :=
  match findKey E cl kvs low key with
  | (low, some k) => (.obj n (erase k kvs) (delCaseless E low k), true)
  | (low, none) => (.obj n kvs low, false)

/-- insert_append_delete.go:627-632 `deleteInArr` -/
def deleteInArr {α : Type} [HasNil α] (xs : List α) (pos : Nat) : R (List α) :=
  if pos < xs.length then
    let ys := xs.set pos HasNil.nilv
    .ok ((copyAt ys pos (ys.drop (pos + 1))).take (xs.length - 1))
  else .panic

/-- insert_append_delete.go:589-625 `deleteInCurrentValue`, `deleteInCurrentObject`, `deleteInCurrentArray` -/
def deleteLast (E : Env) (cl : Bool) (v : V) (p : Param) : V × R Unit :=
  match v with
  | .nilp => (v, .panic)
  | .obj n kvs low =>
    match anyToString p with
    | .ok key =>
      match delKey E cl n kvs low key with
      | (v, true) => (v, .ok ())
      | (v, false) => (v, .err .notFound)
    | .err e => (v, .err e)
    | _ => (v, .panic)
  | .arr xs =>
    match anyToInt p with
    | .ok pos =>
      let pos := posForRead xs.length pos
      if pos < 0 then (v, .err .outOfRange)
      else match deleteInArr xs pos.toNat with
        | .ok ys => (.arr ys, .ok ())
        | _ => (v, .panic)
    | .err e => (v, .err e)
    | _ => (v, .panic)
  | v => (v, .err .other)

mutual
/-- insert_append_delete.go:565-587 `delete` with a single parameter -/
def deleteAt1 (E : Env) (cl : Bool) (v : V) : Param → V × R Unit
  | .slice qs => if qs.isEmpty then deleteLast E cl v .nil else deleteAt E cl v [] qs
  | p => deleteLast E cl v p
termination_by structural p => p
/-- the same for `pre ++ ps`; all parameters but the last address the container (`get`) -/
def deleteAt (E : Env) (cl : Bool) (v : V) (pre : List Param) : List Param → V × R Unit
  | [] => (v, .panic)
  | p :: rest =>
    if !rest.isEmpty then deleteAt E cl v (pre ++ [p]) rest
    else match pre with
    | [] => deleteAt1 E cl v p
    | first :: _ =>
      if first.isSlice then (v, .err .multipleParam)
      else match resolve E cl v pre with
        | (v, .ok l) => v.modify (fun a => deleteAt1 E cl a p) l
        | (v, .err e) => (v, .err e)
        | (v, .panic) => (v, .panic)
        | (v, .diverge) => (v, .diverge)
termination_by structural ps => ps
end

/-- insert_append_delete.go:561-563 `Delete`, get.go:492-498 `Caseless().Delete`, `MustDelete`; insert_append_delete_must.go:243-245 `MustDelete` drops the error -/
def delete (E : Env) (cl : Bool) (v : V) (ps : List Param) : V × R Unit := deleteAt E cl v [] ps

end JV
