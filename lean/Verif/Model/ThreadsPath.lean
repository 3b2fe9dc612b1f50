import Verif.Model.ThreadsMake
/-!
Insert, Append and Delete with any path, SortArray, and Unmarshal, as code of reads, writes and allocations of shared memory (see Model/Threads).
-/
namespace JV

/-- get.go:358-371 `getArray`, see `hgetArray` -/
def aGetArray (E : Env) (v : Ptr) (ps : List Param) : Act Ptr :=
  (aGet E false v ps).onOk fun q =>
    match q with
    | none => .ret .panic
    | some b => .read b fun
      | none => .ret .panic
      | some (.arr _) => .ret (.ok q)
      | some _ => .ret (.err .typeNotMatch)

mutual
/-- insert_append_delete.go:180-227 `Before`, 229-280 `After` with a single parameter, see `hinsertAt1` -/
def aInsertAt1 (E : Env) (after : Bool) (v c : Ptr) : Param → Act Ptr
  | .slice qs => if qs.isEmpty then aInsertLast after v c .nil else aInsertAt E after v c [] qs
  | p => aInsertLast after v c p
termination_by structural p => p
/-- the same for `pre ++ ps`, see `hinsertAt` -/
def aInsertAt (E : Env) (after : Bool) (v c : Ptr) (pre : List Param) : List Param → Act Ptr
  | [] => .ret .panic
  | p :: rest =>
    if !rest.isEmpty then aInsertAt E after v c (pre ++ [p]) rest
    else match pre with
    | [] => aInsertAt1 E after v c p
    | first :: _ =>
      if first.isSlice then .ret (.err .multipleParam)
      else match v with
      | none => if after then .ret (.err .valueUninitialized) else .ret .panic
      | some a => aUninit (some a) fun b => if b then .ret (.err .valueUninitialized)
        else (aGetArray E (some a) pre).onOk fun q => aInsertAt1 E after q c p
termination_by structural ps => ps
end

/-- insert_append_delete.go:455-475, 505-519, see `happendPath`: if there is no such array, a new one is set there -/
def aAppendPath (E : Env) (beg : Bool) (v c : Ptr) (ps : List Param) : Act Ptr :=
  (aGetArray E v ps).andThen fun
    | .ok q => aAppendTo beg q c
    | .err .notFound => .alloc (.arr []) fun b => (aSetAt E v (some b) ps).onOk fun q => aAppendTo beg q c
    | .err e => .ret (.err e)
    | .panic => .ret .panic
    | .diverge => .ret .diverge

mutual
/-- insert_append_delete.go:430-475, 480-520 with a single parameter, see `happendAt1` -/
def aAppendAt1 (E : Env) (beg : Bool) (v c : Ptr) : Param → Act Ptr
  | .slice qs => aAppendAt E beg v c qs
  | p => aAppendPath E beg v c [p]
termination_by structural p => p
/-- insert_append_delete.go:430-475 `InTheBeginning`, 480-520 `InTheEnd`, see `happendAt` -/
def aAppendAt (E : Env) (beg : Bool) (v c : Ptr) : List Param → Act Ptr
  | [] =>
    match v with
    | none => if beg then .ret (.err .valueUninitialized) else .ret .panic
    | some a => .read a fun
      | none => .ret .panic
      | some .notExist => .ret (.err .valueUninitialized)
      | some (.arr _) => aAppendTo beg v c
      | some _ => .ret (.err .notArrayValue)
  | p :: rest =>
    match v with
    | none => if beg then .ret (.err .valueUninitialized) else .ret .panic
    | some a => aUninit (some a) fun b => if b then .ret (.err .valueUninitialized)
      else if p.isSlice && !rest.isEmpty then .ret (.err .multipleParam)
      else if p.isSlice then aAppendAt1 E beg (some a) c p
      else aAppendPath E beg (some a) c (p :: rest)
termination_by structural ps => ps
end

mutual
/-- insert_append_delete.go:565-587 `delete` with a single parameter, see `hdeleteAt1` -/
def aDeleteAt1 (E : Env) (cl : Bool) (v : Ptr) : Param → Act Ptr
  | .slice qs => if qs.isEmpty then aDeleteLast E cl v .nil else aDeleteAt E cl v [] qs
  | p => aDeleteLast E cl v p
termination_by structural p => p
/-- the same for `pre ++ ps`, see `hdeleteAt` -/
def aDeleteAt (E : Env) (cl : Bool) (v : Ptr) (pre : List Param) : List Param → Act Ptr
  | [] => .ret .panic
  | p :: rest =>
    if !rest.isEmpty then aDeleteAt E cl v (pre ++ [p]) rest
    else match pre with
    | [] => aDeleteAt1 E cl v p
    | first :: _ =>
      if first.isSlice then .ret (.err .multipleParam)
      else (aGet E cl v pre).onOk fun q => aDeleteAt1 E cl q p
termination_by structural ps => ps
end

/-- sort.go:24-65 `SortArray`, see `hsortArray` for what is simplified; here, too, the elements are read before the sort, and the array is written in one
step -/
def aSortArray (S : SortFn) (fuel : Nat) (v : Ptr) (less : Option (V → V → Bool)) : Act Ptr :=
  match less with
  | none => .ret (.ok none)
  | some f =>
    match v with
    | none => .ret .panic
    | some a => .read a fun
      | none => .ret .panic
      | some (.arr xs) => (aReadList (aRead fuel) xs).onOk fun vs =>
        .write a (.arr ((sortBy S (fun x y => f x.2 y.2) (xs.zip vs)).map Prod.fst)) (.ret (.ok none))
      | some _ => .ret (.ok none)

mutual
/-- a new document, every node a new object, see `hbuild`: what Unmarshal (jsonvalue.go:238-251, unmarshal.go) does to shared memory. Simplified: the
fields of a node are filled in when it is allocated, the children before the parent; until Unmarshal returns no other goroutine can see it. -/
def aBuild : V → Act Ptr
  | .nilp => .ret (.ok none)
  | .notExist => aNew .notExist
  | .str s => aNew (.str s)
  | .num src n => aNew (.num src n)
  | .bool b => aNew (.bool b)
  | .null => aNew .null
  | .arr xs => (aBuilds xs).onOk fun ps => aNew (.arr ps)
  | .obj n kvs low => (aBuildEnts kvs).onOk fun es => aNew (.obj n es low)
/-- the elements, one after the other, see `hbuilds` -/
def aBuilds : List V → Act (List Ptr)
  | [] => .ret (.ok [])
  | v :: vs => (aBuild v).onOk fun p => (aBuilds vs).onOk fun ps => .ret (.ok (p :: ps))
/-- the members, one after the other, see `hbuildEnts` -/
def aBuildEnts : List Ent → Act (List HEnt)
  | [] => .ret (.ok [])
  | .mk k i v :: es => (aBuild v).onOk fun p => (aBuildEnts es).onOk fun hs => .ret (.ok (⟨k, i, p⟩ :: hs))
end

/-- jsonvalue.go:238-251 `Unmarshal` (and the functions on it): the text belongs to the caller and is not part of the memory here -/
def aUnmarshal (E : Env) (b : Bytes) : Act Ptr :=
  match goUnmarshal E b with
  | .ok (_, _, some e) => .ret (.err e)
  | .ok (_, res, none) => aBuild res
  | .err e => .ret (.err e)
  | .panic => .ret .panic
  | .diverge => .ret .diverge

/-- marshaler_unmarshaler.go:22-29 `UnmarshalJSON`, 37-44 `UnmarshalBinary`, see `hload` and `hoverwrite` -/
def aLoad (E : Env) (v : Ptr) (b : Bytes) : Act Ptr :=
  (aUnmarshal E b).onOk fun n =>
    match v, n with
    | some a, some n => .read n fun
      | some c => .readIndex n fun l => .write a c (.writeIndex a l (.ret (.ok none)))
      | none => .ret .panic
    | _, _ => .ret .panic

end JV
