import Verif.Model.Threads
/-!
The calls that change one value, as code of reads and writes of shared memory (see Model/Threads). Each is one level deep: Set.At, Insert.Before,
Insert.After, Append and Delete with a single parameter, on the value they are called on; with more parameters the value is addressed by Get first
(`aGet`), and no containers are made on the way. New values are made of memory that the goroutine has for this (`aMake`). Simplified: the map of an object, or the elements of an
array, are written in one step together with the `V` they belong to.
-/
namespace JV

/-- new.go:232-248 `new`, `newObject`, `newArray` and the NewXxx functions on them: the fields of a new `V` are filled in. Simplified: the address is not
chosen by an allocator that all goroutines share, but is one of those that belong to the goroutine (the allocator of Go never gives the same memory to
two goroutines). With an address in use it is the assignment `*v = *res` of marshaler_unmarshaler.go:27 and 42. -/
def aMake (a : Nat) (c : Cell) : Act Ptr := .write a c.plain (.writeIndex a c.index (.ret (.ok (some a))))

/-- set.go:167-174 `setToObjectChildren`: the counter and the map, then the lower case index (jsonvalue.go:165-177), which is left alone when there
is none; see `hsetKey` -/
def aSetKey (E : Env) (a : Nat) (n : BitVec 32) (kvs : List HEnt) (k : Bytes) (c : Ptr) : Act Ptr :=
  .write a (.obj (n + 1) (hassign ⟨k, n + 1, c⟩ kvs) none) <| .readIndex a fun
    | none => .ret (.ok c)
    | some l => .writeIndex a (addCaseless E (some l) k) (.ret (.ok c))

/-- set.go:214-241 `atLastParam`, see `hatLast` -/
def aSetLast (E : Env) (v c : Ptr) (p : Param) : Act Ptr :=
  match v with
  | none => .ret .panic
  | some a => .read a fun
    | none => .ret .panic
    | some (.obj n kvs _) =>
      match anyToString p with
      | .ok k => aSetKey E a n kvs k c
      | .err e => .ret (.err e)
      | _ => .ret .panic
    | some (.arr xs) =>
      match anyToInt p with
      | .ok pos =>
        match setAtIndex xs c pos with
        | .ok (ys, _) => .write a (.arr ys) (.ret (.ok c))
        | .err e => .ret (.err e)
        | _ => .ret .panic
      | .err e => .ret (.err e)
      | _ => .ret .panic
    | some _ => .ret (.err .other)

/-- insert_append_delete.go:198-212 (Before) and 247-265 (After), see `hinsertLast` -/
def aInsertLast (after : Bool) (v c : Ptr) (p : Param) : Act Ptr :=
  match v with
  | none => if after then .ret (.err .valueUninitialized) else .ret .panic
  | some a => .read a fun
    | none => .ret .panic
    | some .notExist => .ret (.err .valueUninitialized)
    | some (.arr xs) =>
      match anyToInt p with
      | .ok pos =>
        let q := if after then posForInsertAfter xs.length pos else (posForInsertBefore xs.length pos, false)
        if q.1 < 0 then .ret (.err .outOfRange)
        else if q.2 then .write a (.arr (xs ++ [c])) (.ret (.ok c))
        else match insertToArr xs q.1.toNat c with
          | .ok ys => .write a (.arr ys) (.ret (.ok c))
          | _ => .ret .panic
      | .err e => .ret (.err e)
      | _ => .ret .panic
    | some _ => .ret (.err .notArrayValue)

/-- insert_append_delete.go:444-448, 470-474 and unmarshal.go:168-173, see `happendTo` -/
def aAppendTo (beginning : Bool) (v c : Ptr) : Act Ptr :=
  match v with
  | none => .ret .panic
  | some a => .read a fun
    | none => .ret .panic
    | some (.arr xs) =>
      if beginning && !xs.isEmpty then
        match insertToArr xs 0 c with
        | .ok ys => .write a (.arr ys) (.ret (.ok c))
        | _ => .ret .panic
      else .write a (.arr (xs ++ [c])) (.ret (.ok c))
    | some _ => .ret (.ok c)

/-- insert_append_delete.go:527-528, 548-549: `delete(v.children.object, key)` and jsonvalue.go:178-193 `delCaselessKey` -/
def aDropKey (E : Env) (a : Nat) (n : BitVec 32) (kvs : List HEnt) (k : Bytes) : Act Ptr :=
  .write a (.obj n (herase k kvs) none) <| .readIndex a fun
    | none => .ret (.ok none)
    | some l => .writeIndex a (delCaseless E (some l) k) (.ret (.ok none))

/-- insert_append_delete.go:524-556 `delFromObjectChildren` -/
def aDelKey (E : Env) (cl : Bool) (a : Nat) (n : BitVec 32) (kvs : List HEnt) (key : Bytes) : Act Ptr :=
  match hlookup key kvs with
  | some _ => aDropKey E a n kvs key
  | none =>
    if !cl then .ret (.err .notFound)
    else aInitCaseless E a kvs <| .readIndex a fun l =>
      match lowGet (E.toLower key) (l.getD []) with
      | none => .ret (.err .notFound)
      | some ks => match firstPresent (keysOf kvs) ks with
        | none => .ret (.err .notFound)
        | some k => aDropKey E a n kvs k

/-- insert_append_delete.go:589-632 `deleteInCurrentValue`, see `hdeleteLast` -/
def aDeleteLast (E : Env) (cl : Bool) (v : Ptr) (p : Param) : Act Ptr :=
  match v with
  | none => .ret .panic
  | some a => .read a fun
    | none => .ret .panic
    | some (.obj n kvs _) =>
      match anyToString p with
      | .ok key => aDelKey E cl a n kvs key
      | .err e => .ret (.err e)
      | _ => .ret .panic
    | some (.arr xs) =>
      match anyToInt p with
      | .ok pos =>
        let pos := posForRead xs.length pos
        if pos < 0 then .ret (.err .outOfRange)
        else match deleteInArr xs pos.toNat with
          | .ok ys => .write a (.arr ys) (.ret (.ok none))
          | _ => .ret .panic
      | .err e => .ret (.err e)
      | _ => .ret .panic
    | some _ => .ret (.err .other)

end JV
