import Verif.Model.Import
import Verif.Model.Compare
/-!
The calls that take Go data in place of a `*V`, and the typed variants of Set, Insert and Append.
-/
namespace JV

/-- an operation on the child that `Set`, `Insert` or `Append` made of its argument. The argument is converted first; if that panics nothing
else happens. -/
def withChild (E : Env) (S : SortFn) (F : FloatText) (ig : Bool) (v : V) (x : GoVal) (f : Ch → V × R (List Step)) : V × R (List Step) :=
  match childOf E S F ig x with
  | .ok ch => f ch
  | .err e => (v, .err e)
  | .panic => (v, .panic)
  | .diverge => (v, .diverge)

/-- set.go:49-66, 176-212 `v.Set(x).At(ps...)`; set_must.go:28-33, 134-136 `MustSet` and 146-162 `v.At(ps...).Set(x)` do the same and drop the
result -/
def setGo (E : Env) (S : SortFn) (F : FloatText) (ig : Bool) (v : V) (x : GoVal) (ps : List Param) : V × R (List Step) :=
  withChild E S F ig v x fun ch => set E v ch ps

/-- insert_append_delete.go:70-88 `v.Insert(x)` with `.Before(ps...)` (183-226) or `.After(ps...)` (229-274); insert_append_delete_must.go:53-58,
125-131 `MustInsert` -/
def insertGo (E : Env) (S : SortFn) (F : FloatText) (ig : Bool) (after : Bool) (v : V) (x : GoVal) (ps : List Param) : V × R (List Step) :=
  withChild E S F ig v x fun ch => insert E after v ch ps

/-- insert_append_delete.go:311-328 `v.Append(x)` with `.InTheBeginning(ps...)` (430-475) or `.InTheEnd(ps...)` (480-520);
insert_append_delete_must.go:155-160, 232-238 `MustAppend` -/
def appendGo (E : Env) (S : SortFn) (F : FloatText) (ig : Bool) (beg : Bool) (v : V) (x : GoVal) (ps : List Param) : V × R (List Step) :=
  withChild E S F ig v x fun ch => append E beg v ch ps

/-- beta/contain.go:12-47 `Contains(v, sub, inPath...)` for any `sub` -/
def containsGo (E : Env) (S : SortFn) (F : FloatText) (ig : Bool) (D : DecFn) (v : V) (x : GoVal) (path : List Param) : R Bool :=
  match v with
  | .nilp => .ok false
  | v =>
    match x with
    | .jv sub => containsAt E D v sub path
    | x =>
      match goImport E S F ig x with
      | .ok (sub, none) => containsAt E D v sub path
      | .ok (_, some _) => .ok false
      | .err e => .err e
      | .panic => .panic
      | .diverge => .diverge

/-- the argument of one of the typed calls; `Int` and `Int64`, `Uint` and `Uint64` are the same -/
inductive TChild where
  | str (s : Bytes)
  | bytes (b : Bytes)
  | bool (b : Bool)
  | int64 (i : BitVec 64)
  | int32 (i : BitVec 32)
  | uint64 (u : BitVec 64)
  | uint32 (u : BitVec 32)
  | float64 (f : BitVec 64)
  | float32 (f : BitVec 32)
  | null
  | object
  | array
deriving DecidableEq, Repr

/-- The value the typed calls pass on: set.go:71-165 `SetString` … `SetArray`, insert_append_delete.go:92-178 `InsertString` … `InsertArray`
(there is no InsertBytes), 332-425 `AppendString` … `AppendArray`, set_must.go:38-132, insert_append_delete_must.go:61-123 and 163-230 the Must
variants; new.go:75-98 `NewInt`, `NewUint`, `NewInt32`, `NewUint32`. `up` is Go's `float64(f)` for a float32. -/
def TChild.v (E : Env) (F : FloatText) (up : BitVec 32 → BitVec 64) : TChild → V
  | .str s => .str s
  | .bytes b => newBytes b
  | .bool b => .bool b
  | .int64 i => newInt64 E i
  | .int32 i => newInt64 E (i.signExtend 64)
  | .uint64 u => newUint64 E u
  | .uint32 u => newUint64 E (u.zeroExtend 64)
  | .float64 f => newFloat E F false f
  | .float32 f => newFloat E F true (up f)
  | .null => .null
  | .object => newObject
  | .array => newArray

/-- `v.SetX(x).At(ps...)` -/
def setT (E : Env) (F : FloatText) (up : BitVec 32 → BitVec 64) (v : V) (t : TChild) (ps : List Param) : V × R (List Step) :=
  set E v { c := t.v E F up } ps
/-- `v.InsertX(x).Before(ps...)`, `.After(ps...)` -/
def insertT (E : Env) (F : FloatText) (up : BitVec 32 → BitVec 64) (after : Bool) (v : V) (t : TChild) (ps : List Param) : V × R (List Step) :=
  insert E after v { c := t.v E F up } ps
/-- `v.AppendX(x).InTheBeginning(ps...)`, `.InTheEnd(ps...)` -/
def appendT (E : Env) (F : FloatText) (up : BitVec 32 → BitVec 64) (beg : Bool) (v : V) (t : TChild) (ps : List Param) : V × R (List Step) :=
  append E beg v { c := t.v E F up } ps

/-- a value of a map `M` by its reflect.Kind: integers of any size, floats as float64 (`reflect.Value.Float`; `w` says float32), `other` every
other kind -/
inductive MVal where
  | nil
  | bool (b : Bool)
  | int (i : BitVec 64)
  | uint (u : BitVec 64)
  | flt (w : Bool) (f : BitVec 64)
  | str (s : Bytes)
  | other
deriving DecidableEq, Repr

/-- new.go:141-170: the call the loop makes for one value, if any -/
def MVal.child (E : Env) (F : FloatText) : MVal → Option V
  | .nil => some .null
  | .bool b => some (.bool b)
  | .int i => some (newInt64 E i)
  | .uint u => some (newUint64 E u)
  | .flt _ f => some (newFloat E F false f)
  | .str s => some (.str s)
  | .other => none

/-- new.go:139-171 `parseNewObjectKV`: the loop over the map, in any order -/
def newObjectLoop (E : Env) (F : FloatText) (v : V) : List (Bytes × MVal) → R V
  | [] => .ok v
  | (k, m) :: kvs =>
    match m.child E F with
    | none => newObjectLoop E F v kvs
    | some c =>
      match mustSetKey E v c k with
      | .ok v => newObjectLoop E F v kvs
      | r => r

/-- new.go:123-134 `NewObject(kv)`; a nil map is `[]` -/
def newObjectM (E : Env) (F : FloatText) (kvs : List (Bytes × MVal)) : R V := newObjectLoop E F newObject kvs

end JV
