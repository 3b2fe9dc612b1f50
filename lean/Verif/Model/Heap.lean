import Verif.Model.Modify
import Verif.Model.Marshal
import Verif.Model.Api
/-!
The same operations on a heap of Go objects. A `*V` is an address or nil, a node holds pointers to its children, and nothing prevents
two places from pointing to the same node, or a node from being below itself. Proofs/HeapRefine shows that on nodes that each have one
place this model and the tree model of Model/Access and Model/Modify agree.

Reading an address that was never allocated is a `panic`; it cannot happen in a heap built through the API (`SelfContained` in Spec/Heap).
-/
namespace JV

abbrev Ptr := Option Nat

instance : HasNil Ptr := ⟨none⟩

/-- jsonvalue.go:121-124 `childWithProperty` together with its key -/
structure HEnt where
  key : Bytes
  id : BitVec 32
  v : Ptr
deriving DecidableEq

/-- jsonvalue.go:102-133 one `V` object; see `V` in Model/Value -/
inductive Cell where
  | notExist
  | str (s : Bytes)
  | num (src : Bytes) (n : Num)
  | bool (b : Bool)
  | null
  | arr (xs : List Ptr)
  | obj (incr : BitVec 32) (kvs : List HEnt) (low : Low)
deriving DecidableEq

/-- the objects allocated so far; the address of an object is its position -/
abbrev Heap := List Cell

/-- `m[key]`, see `lookup` -/
def hlookup (k : Bytes) : List HEnt → Option HEnt
  | [] => none
  | e :: es => if e.key = k then some e else hlookup k es

/-- `m[key] = e`, see `assign` -/
def hassign (e : HEnt) : List HEnt → List HEnt
  | [] => [e]
  | x :: xs => if x.key = e.key then e :: xs else x :: hassign e xs

/-- `delete(m, key)`, see `erase` -/
def herase (k : Bytes) : List HEnt → List HEnt
  | [] => []
  | x :: xs => if x.key = k then xs else x :: herase k xs

/-- the keys and ids of a map, for the functions of Model/Access that look at nothing else -/
def keysOf (kvs : List HEnt) : List Ent := kvs.map fun e => ⟨e.key, e.id, .notExist⟩

/-- `nil == v || v.valueType == NotExist` -/
def Heap.uninit (h : Heap) : Ptr → Bool
  | none => true
  | some a => match h[a]? with
    | some .notExist => true
    | _ => false

/-- get.go:98-133 `getInCurrentValue` and set.go:393-399 `childAtIndex`: the pointer to the child; `locate` on the heap -/
def hlocate (E : Env) (cl : Bool) (h : Heap) (v : Ptr) (p : Param) : Heap × R Ptr :=
  match v with
  | none => (h, .panic)
  | some a =>
    match h[a]? with
    | none => (h, .panic)
    | some (.arr xs) =>
      match anyToInt p with
      | .ok pos =>
        let pos := posForRead xs.length pos
        if pos < 0 then (h, .err .outOfRange)
        else match xs[pos.toNat]? with
          | some c => (h, .ok c)
          | none => (h, .panic)
      | .err e => (h, .err e)
      | _ => (h, .panic)
    | some (.obj n kvs low) =>
      match anyToString p with
      | .ok key =>
        match findKey E cl (keysOf kvs) low key with
        | (low, some k) =>
          match hlookup k kvs with
          | some e => (h.set a (.obj n kvs low), .ok e.v)
          | none => (h.set a (.obj n kvs low), .panic)
        | (low, none) => (h.set a (.obj n kvs low), .err .notFound)
      | .err e => (h, .err e)
      | _ => (h, .panic)
    | some _ => (h, .err .other)

mutual
/-- get.go:42-58 `get` with a single parameter; `resolve1` on the heap -/
def hget1 (E : Env) (cl : Bool) (h : Heap) (v : Ptr) : Param → Heap × R Ptr
  | .slice qs => if qs.isEmpty then hlocate E cl h v .nil else hget E cl h v qs
  | p => hlocate E cl h v p
termination_by structural p => p
/-- get.go:42-58 `get`: the pointer to the child itself is returned -/
def hget (E : Env) (cl : Bool) (h : Heap) (v : Ptr) : List Param → Heap × R Ptr
  | [] => (h, .panic)
  | p :: rest =>
    if rest.isEmpty then hget1 E cl h v p
    else if p.isSlice then (h, .err .multipleParam)
    else match hlocate E cl h v p with
      | (h, .ok c) => hget E cl h c rest
      | (h, .err e) => (h, .err e)
      | (h, .panic) => (h, .panic)
      | (h, .diverge) => (h, .diverge)
termination_by structural ps => ps
end

/-- set.go:167-174 `setToObjectChildren(v, key, child)` -/
def hsetKey (E : Env) (h : Heap) (a : Nat) (k : Bytes) (c : Ptr) : Heap × R Ptr :=
  match h[a]? with
  | some (.obj n kvs low) => (h.set a (.obj (n + 1) (hassign ⟨k, n + 1, c⟩ kvs) (addCaseless E low k)), .ok c)
  | _ => (h, .panic)

/-- unmarshal.go:168-173 `appendToArr(v, child)` on an array -/
def hpush (h : Heap) (a : Nat) (c : Ptr) : Heap × R Ptr :=
  match h[a]? with
  | some (.arr xs) => (h.set a (.arr (xs ++ [c])), .ok c)
  | _ => (h, .panic)

/-- set.go:214-241 `atLastParam` -/
def hatLast (E : Env) (h : Heap) (v c : Ptr) (p : Param) : Heap × R Ptr :=
  match v with
  | none => (h, .panic)
  | some a =>
    match h[a]? with
    | none => (h, .panic)
    | some (.obj _ _ _) =>
      match anyToString p with
      | .ok k => hsetKey E h a k c
      | .err e => (h, .err e)
      | _ => (h, .panic)
    | some (.arr xs) =>
      match anyToInt p with
      | .ok pos =>
        match setAtIndex xs c pos with
        | .ok (ys, _) => (h.set a (.arr ys), .ok c)
        | .err e => (h, .err e)
        | _ => (h, .panic)
      | .err e => (h, .err e)
      | _ => (h, .panic)
    | some _ => (h, .err .other)

/-- set.go:252-262, 288-299: the container created for a missing step, see `newContainer` -/
def hnewContainer (next : Param) : R Cell :=
  match anyToString next with
  | .ok _ => .ok (.obj 0 [] none)
  | _ => match anyToInt next with
    | .ok i => if i ≠ 0 then .err .outOfRange else .ok (.arr [])
    | _ => .err .other

/-- go on with the returned pointer -/
def hthen (r : Heap × R Ptr) (f : Heap → Ptr → Heap × R Ptr) : Heap × R Ptr :=
  match r with
  | (h, .ok c) => f h c
  | (h, .err e) => (h, .err e)
  | (h, .panic) => (h, .panic)
  | (h, .diverge) => (h, .diverge)

mutual
/-- set.go:176-212 `At` with a single parameter; `setAt1` on the heap -/
def hsetAt1 (E : Env) (h : Heap) (v c : Ptr) : Param → Heap × R Ptr
  | .slice qs =>
    if qs.isEmpty then
      if h.uninit v || h.uninit c then (h, .err .valueUninitialized) else hatLast E h v c .nil
    else hsetAt E h v c qs
  | p => if h.uninit v || h.uninit c then (h, .err .valueUninitialized) else hatLast E h v c p
termination_by structural p => p
/-- set.go:176-212 `At`, with `atObject` (243-275) and `atArray` (277-312): the child pointer itself is stored and returned. A container
that was created for a missing step is linked into its parent only after the rest succeeded. -/
def hsetAt (E : Env) (h : Heap) (v c : Ptr) : List Param → Heap × R Ptr
  | [] => (h, .panic)
  | p :: rest =>
    match rest with
    | [] => hsetAt1 E h v c p
    | next :: _ =>
      if p.isSlice then (h, .err .multipleParam)
      else if h.uninit v || h.uninit c then (h, .err .valueUninitialized)
      else match v with
      | none => (h, .panic)
      | some a =>
        match h[a]? with
        | none => (h, .panic)
        | some (.obj _ kvs _) =>
          match anyToString p with
          | .ok k =>
            match hlookup k kvs with
            | some e => hsetAt E h e.v c rest
            | none =>
              match hnewContainer next with
              | .ok cell =>
                hthen (hsetAt E (h ++ [cell]) (some h.length) c rest) fun h' c => hthen (hsetKey E h' a k (some h.length)) fun h' _ => (h', .ok c)
              | .err e => (h, .err e)
              | _ => (h, .panic)
          | .err e => (h, .err e)
          | _ => (h, .panic)
        | some (.arr xs) =>
          match anyToInt p with
          | .ok pos =>
            let i := posForRead xs.length pos
            if i < 0 then
              match hnewContainer next with
              | .ok cell =>
                hthen (hsetAt E (h ++ [cell]) (some h.length) c rest) fun h' c => hthen (hpush h' a (some h.length)) fun h' _ => (h', .ok c)
              | .err e => (h, .err e)
              | _ => (h, .panic)
            else match xs[i.toNat]? with
              | some child => hsetAt E h child c rest
              | none => (h, .panic)
          | .err e => (h, .err e)
          | _ => (h, .panic)
        | some _ => (h, .err .other)
termination_by structural ps => ps
end

/-- get.go:358-371 `getArray`; `locArray` on the heap -/
def hgetArray (E : Env) (h : Heap) (v : Ptr) (ps : List Param) : Heap × R Ptr :=
  hthen (hget E false h v ps) fun h q =>
    match q with
    | none => (h, .panic)
    | some b => match h[b]? with
      | none => (h, .panic)
      | some (.arr _) => (h, .ok q)
      | some _ => (h, .err .typeNotMatch)

/-- insert_append_delete.go:198-212 (Before) and 247-265 (After): the last parameter, on the array itself -/
def hinsertLast (after : Bool) (h : Heap) (v c : Ptr) (p : Param) : Heap × R Ptr :=
  match v with
  | none => if after then (h, .err .valueUninitialized) else (h, .panic)
  | some a =>
    match h[a]? with
    | none => (h, .panic)
    | some .notExist => (h, .err .valueUninitialized)
    | some (.arr xs) =>
      match anyToInt p with
      | .ok pos =>
        let q := if after then posForInsertAfter xs.length pos else (posForInsertBefore xs.length pos, false)
        if q.1 < 0 then (h, .err .outOfRange)
        else if q.2 then (h.set a (.arr (xs ++ [c])), .ok c)
        else match insertToArr xs q.1.toNat c with
          | .ok ys => (h.set a (.arr ys), .ok c)
          | _ => (h, .panic)
      | .err e => (h, .err e)
      | _ => (h, .panic)
    | some _ => (h, .err .notArrayValue)

mutual
/-- insert_append_delete.go:180-227 `Before`, 229-280 `After` with a single parameter; `insertAt1` on the heap -/
def hinsertAt1 (E : Env) (after : Bool) (h : Heap) (v c : Ptr) : Param → Heap × R Ptr
  | .slice qs => if qs.isEmpty then hinsertLast after h v c .nil else hinsertAt E after h v c [] qs
  | p => hinsertLast after h v c p
termination_by structural p => p
/-- the same for `pre ++ ps`; all parameters but the last address the array (`GetArray`) -/
def hinsertAt (E : Env) (after : Bool) (h : Heap) (v c : Ptr) (pre : List Param) : List Param → Heap × R Ptr
  | [] => (h, .panic)
  | p :: rest =>
    if !rest.isEmpty then hinsertAt E after h v c (pre ++ [p]) rest
    else match pre with
    | [] => hinsertAt1 E after h v c p
    | first :: _ =>
      if first.isSlice then (h, .err .multipleParam)
      else match v with
      | none => if after then (h, .err .valueUninitialized) else (h, .panic)
      | some a =>
        if h.uninit (some a) then (h, .err .valueUninitialized)
        else hthen (hgetArray E h (some a) pre) fun h q => hinsertAt1 E after h q c p
termination_by structural ps => ps
end

/-- `v.Insert(child).Before(params...)` / `.After(params...)` for a child that is a `*V` -/
def hinsert (E : Env) (after : Bool) (h : Heap) (v c : Ptr) (ps : List Param) : Heap × R Ptr := hinsertAt E after h v c [] ps

/-- unmarshal.go:168-173 `appendToArr`, insert_append_delete.go:444-448, 470-474; see `appendTo` -/
def happendTo (beginning : Bool) (h : Heap) (v c : Ptr) : Heap × R Ptr :=
  match v with
  | none => (h, .panic)
  | some a =>
    match h[a]? with
    | none => (h, .panic)
    | some (.arr xs) =>
      if beginning && !xs.isEmpty then
        match insertToArr xs 0 c with
        | .ok ys => (h.set a (.arr ys), .ok c)
        | _ => (h, .panic)
      else (h.set a (.arr (xs ++ [c])), .ok c)
    | some _ => (h, .ok c)

/-- insert_append_delete.go:455-475, 505-519; see `appendPath` -/
def happendPath (E : Env) (beg : Bool) (h : Heap) (v c : Ptr) (ps : List Param) : Heap × R Ptr :=
  match hgetArray E h v ps with
  | (h, .ok q) => happendTo beg h q c
  | (h, .err .notFound) => hthen (hsetAt E (h ++ [.arr []]) v (some h.length) ps) fun h q => happendTo beg h q c
  | (h, .err e) => (h, .err e)
  | (h, .panic) => (h, .panic)
  | (h, .diverge) => (h, .diverge)

mutual
/-- insert_append_delete.go:430-475, 480-520 with a single parameter -/
def happendAt1 (E : Env) (beg : Bool) (h : Heap) (v c : Ptr) : Param → Heap × R Ptr
  | .slice qs => happendAt E beg h v c qs
  | p => happendPath E beg h v c [p]
termination_by structural p => p
/-- insert_append_delete.go:430-475 `InTheBeginning`, 480-520 `InTheEnd`; `appendAt` on the heap -/
def happendAt (E : Env) (beg : Bool) (h : Heap) (v c : Ptr) : List Param → Heap × R Ptr
  | [] =>
    match v with
    | none => if beg then (h, .err .valueUninitialized) else (h, .panic)
    | some a => match h[a]? with
      | none => (h, .panic)
      | some .notExist => (h, .err .valueUninitialized)
      | some (.arr _) => happendTo beg h v c
      | some _ => (h, .err .notArrayValue)
  | p :: rest =>
    match v with
    | none => if beg then (h, .err .valueUninitialized) else (h, .panic)
    | some a =>
      if h.uninit (some a) then (h, .err .valueUninitialized)
      else if p.isSlice && !rest.isEmpty then (h, .err .multipleParam)
      else if p.isSlice then happendAt1 E beg h (some a) c p
      else happendPath E beg h (some a) c (p :: rest)
termination_by structural ps => ps
end

/-- insert_append_delete.go:589-625 `deleteInCurrentValue` and 524-556 `delFromObjectChildren`, 627-632 `deleteInArr`. Delete returns no
pointer; `none` stands for the missing result. -/
def hdeleteLast (E : Env) (cl : Bool) (h : Heap) (v : Ptr) (p : Param) : Heap × R Ptr :=
  match v with
  | none => (h, .panic)
  | some a =>
    match h[a]? with
    | none => (h, .panic)
    | some (.obj n kvs low) =>
      match anyToString p with
      | .ok key =>
        match findKey E cl (keysOf kvs) low key with
        | (low, some k) => (h.set a (.obj n (herase k kvs) (delCaseless E low k)), .ok none)
        | (low, none) => (h.set a (.obj n kvs low), .err .notFound)
      | .err e => (h, .err e)
      | _ => (h, .panic)
    | some (.arr xs) =>
      match anyToInt p with
      | .ok pos =>
        let pos := posForRead xs.length pos
        if pos < 0 then (h, .err .outOfRange)
        else match deleteInArr xs pos.toNat with
          | .ok ys => (h.set a (.arr ys), .ok none)
          | _ => (h, .panic)
      | .err e => (h, .err e)
      | _ => (h, .panic)
    | some _ => (h, .err .other)

mutual
/-- insert_append_delete.go:565-587 `delete` with a single parameter -/
def hdeleteAt1 (E : Env) (cl : Bool) (h : Heap) (v : Ptr) : Param → Heap × R Ptr
  | .slice qs => if qs.isEmpty then hdeleteLast E cl h v .nil else hdeleteAt E cl h v [] qs
  | p => hdeleteLast E cl h v p
termination_by structural p => p
/-- the same for `pre ++ ps`; all parameters but the last address the container (`get`) -/
def hdeleteAt (E : Env) (cl : Bool) (h : Heap) (v : Ptr) (pre : List Param) : List Param → Heap × R Ptr
  | [] => (h, .panic)
  | p :: rest =>
    if !rest.isEmpty then hdeleteAt E cl h v (pre ++ [p]) rest
    else match pre with
    | [] => hdeleteAt1 E cl h v p
    | first :: _ =>
      if first.isSlice then (h, .err .multipleParam)
      else hthen (hget E cl h v pre) fun h q => hdeleteAt1 E cl h q p
termination_by structural ps => ps
end

/-- sort.go:24-64 `SortArray`: the array holds the same pointers in the order `ys` that came out of the sort. The callback only reads. -/
def hreorder (h : Heap) (v : Ptr) (ys : List Ptr) : Heap × R Ptr :=
  match v with
  | none => (h, .panic)
  | some a =>
    match h[a]? with
    | none => (h, .panic)
    | some (.arr xs) => if xs.isPerm ys then (h.set a (.arr ys), .ok none) else (h, .panic)
    | some _ => (h, .ok none)

/-! ## new objects -/

/-- `&V{…}` -/
def halloc (h : Heap) (c : Cell) : Heap × Ptr := (h ++ [c], some h.length)

mutual
/-- a new value, every node a new object: the constructors of new.go with what they are given, and Unmarshal, for which C36 shows that the
nodes are distinct. The children are allocated before their parent; the order of allocation is not observable. -/
def hbuild (h : Heap) : V → Heap × Ptr
  | .nilp => (h, none)
  | .notExist => halloc h .notExist
  | .str s => halloc h (.str s)
  | .num src n => halloc h (.num src n)
  | .bool b => halloc h (.bool b)
  | .null => halloc h .null
  | .arr xs => let r := hbuilds h xs; halloc r.1 (.arr r.2)
  | .obj n kvs low => let r := hbuildEnts h kvs; halloc r.1 (.obj n r.2 low)
def hbuilds (h : Heap) : List V → Heap × List Ptr
  | [] => (h, [])
  | v :: vs => let r := hbuild h v; let s := hbuilds r.1 vs; (s.1, r.2 :: s.2)
def hbuildEnts (h : Heap) : List Ent → Heap × List HEnt
  | [] => (h, [])
  | .mk k i v :: es => let r := hbuild h v; let s := hbuildEnts r.1 es; (s.1, ⟨k, i, r.2⟩ :: s.2)
end

/-- the loops of `children.deepCopy`, over the elements -/
def hcopyList (f : Heap → Ptr → Heap × R Ptr) (h : Heap) : List Ptr → Heap × R (List Ptr)
  | [] => (h, .ok [])
  | x :: xs =>
    match f h x with
    | (h, .ok c) =>
      match hcopyList f h xs with
      | (h, .ok cs) => (h, .ok (c :: cs))
      | (h, .err e) => (h, .err e)
      | (h, .panic) => (h, .panic)
      | (h, .diverge) => (h, .diverge)
    | (h, .err e) => (h, .err e)
    | (h, .panic) => (h, .panic)
    | (h, .diverge) => (h, .diverge)

/-- the members of `kvs` with other values, in the same order -/
def withValues : List HEnt → List Ptr → List HEnt
  | e :: es, c :: cs => ⟨e.key, e.id, c⟩ :: withValues es cs
  | _, _ => []

/-- jsonvalue.go:496-526 `deepCopy`, 135-163 `children.deepCopy`, reached by Import through import_export.go:193-199. `fuel` bounds the
depth of recursion. Simplified: the code allocates a container before its children. -/
def hdeepCopy : Nat → Heap → Ptr → Heap × R Ptr
  | 0, h, _ => (h, .diverge)
  | fuel + 1, h, v =>
    match v with
    | none => (h ++ [.notExist], .ok (some h.length))
    | some a =>
      match h[a]? with
      | none => (h, .panic)
      | some (.arr xs) =>
        match hcopyList (hdeepCopy fuel) h xs with
        | (h, .ok ys) => (h ++ [.arr ys], .ok (some h.length))
        | (h, .err e) => (h, .err e)
        | (h, .panic) => (h, .panic)
        | (h, .diverge) => (h, .diverge)
      | some (.obj n kvs _) =>
        match hcopyList (hdeepCopy fuel) h (kvs.map HEnt.v) with
        | (h, .ok ys) => (h ++ [.obj n (withValues kvs ys) none], .ok (some h.length))
        | (h, .err e) => (h, .err e)
        | (h, .panic) => (h, .panic)
        | (h, .diverge) => (h, .diverge)
      | some c => (h ++ [c], .ok (some h.length))

/-! ## reading everything below a node -/

/-- visit the children one after the other -/
def hreadList (f : Ptr → R V) : List Ptr → R (List V)
  | [] => .ok []
  | x :: xs =>
    match f x with
    | .ok v => match hreadList f xs with
      | .ok vs => .ok (v :: vs)
      | .err e => .err e
      | .panic => .panic
      | .diverge => .diverge
    | .err e => .err e
    | .panic => .panic
    | .diverge => .diverge

/-- members with the values read -/
def entsOf : List HEnt → List V → List Ent
  | e :: es, v :: vs => ⟨e.key, e.id, v⟩ :: entsOf es vs
  | _, _ => []

/-- the recursion of every function that walks over a whole value (marshal.go:66-84 `marshalToBuffer` with 219-340,
jsonvalue.go:496-526 `deepCopy`): each child is visited by a recursive call. `fuel` bounds the depth of recursion, that is, of the call stack; a nil child is
a value of its own. The result is the tree that such a function sees. -/
def hread : Nat → Heap → Ptr → R V
  | 0, _, _ => .diverge
  | fuel + 1, h, v =>
    match v with
    | none => .ok .nilp
    | some a =>
      match h[a]? with
      | none => .panic
      | some .notExist => .ok .notExist
      | some (.str s) => .ok (.str s)
      | some (.num src n) => .ok (.num src n)
      | some (.bool b) => .ok (.bool b)
      | some .null => .ok .null
      | some (.arr xs) =>
        match hreadList (hread fuel h) xs with
        | .ok vs => .ok (.arr vs)
        | .err e => .err e
        | .panic => .panic
        | .diverge => .diverge
      | some (.obj n kvs low) =>
        match hreadList (hread fuel h) (kvs.map HEnt.v) with
        | .ok vs => .ok (.obj n (entsOf kvs vs) low)
        | .err e => .err e
        | .panic => .panic
        | .diverge => .diverge

/-- marshal.go:38-53 `Marshal`: the walk and what it writes. Simplified: the walk of `hread` comes first. No error stops the recursion of
`marshalToBuffer` (the loops ignore it), so it visits all there is; if a nil child comes before the place where it would recurse for ever, the
code panics there, and here the result is `diverge`. -/
def hmarshal (E : Env) (S : SortFn) (d : Opt) (fuel : Nat) (h : Heap) (v : Ptr) (opts : List MOpt) : R (Bytes × Option Err) :=
  match hread fuel h v with
  | .ok t => marshal E S d t opts
  | .err e => .err e
  | .panic => .panic
  | .diverge => .diverge

/-- sort.go:24-65 `SortArray` with a less function on what hangs below the two elements; `none` is a nil less function. Only the pointers are
moved. Simplified: the function may read the elements as far down as the fuel goes, and they are read before the sort instead of during it (it
does not change anything). -/
def hsortArray (S : SortFn) (fuel : Nat) (h : Heap) (v : Ptr) (less : Option (V → V → Bool)) : Heap × R Ptr :=
  match less with
  | none => (h, .ok none)
  | some f =>
    match v with
    | none => (h, .panic)
    | some a =>
      match h[a]? with
      | none => (h, .panic)
      | some (.arr xs) =>
        match hreadList (hread fuel h) xs with
        | .ok vs => (h.set a (.arr ((sortBy S (fun x y => f x.2 y.2) (xs.zip vs)).map Prod.fst)), .ok none)
        | .err e => (h, .err e)
        | .panic => (h, .panic)
        | .diverge => (h, .diverge)
      | some _ => (h, .ok none)

/-- the struct assignment `*v = *res` of marshaler_unmarshaler.go:27 and 42, with a new value `t` below `res`: the object takes over the fields of the
new one, and with them its children. The new object itself is not referred to any more. -/
def hoverwrite (h : Heap) (v : Ptr) (t : V) : Heap × R Ptr :=
  match v, (hbuild h t).2 with
  | some a, some n =>
    match (hbuild h t).1[n]? with
    | some c => ((hbuild h t).1.set a c, .ok none)
    | none => ((hbuild h t).1, .panic)
  | _, _ => ((hbuild h t).1, .panic)

/-- marshaler_unmarshaler.go:22-29 `UnmarshalJSON`, 37-44 `UnmarshalBinary` (the same code) -/
def hload (E : Env) (h : Heap) (v : Ptr) (b : Bytes) : Heap × R Ptr :=
  match goUnmarshal E b with
  | .ok (_, _, some e) => (h, .err e)
  | .ok (_, res, none) => hoverwrite h v res
  | .err e => (h, .err e)
  | .panic => (h, .panic)
  | .diverge => (h, .diverge)

/-! ## programs -/

/-- the calls that store a child -/
inductive Put where
  | set
  | insert (after : Bool)
  | append (beginning : Bool)

/-- on the heap -/
def Put.onHeap (E : Env) (h : Heap) (v c : Ptr) (ps : List Param) : Put → Heap × R Ptr
  | .set => hsetAt E h v c ps
  | .insert after => hinsert E after h v c ps
  | .append beg => happendAt E beg h v c ps

/-- on trees, see Model/Modify -/
def Put.onTree (E : Env) (v c : V) (ps : List Param) : Put → V × R (List Step)
  | .set => setAt E v c ps
  | .insert after => insertAt E after v c [] ps
  | .append beg => appendAt E beg v c ps

/-- a call of the public API with the pointers it is given -/
inductive HOp where
  /-- a constructor or Unmarshal -/
  | new (v : V)
  | get (caseless : Bool) (v : Ptr) (ps : List Param)
  | set (v c : Ptr) (ps : List Param)
  | insert (after : Bool) (v c : Ptr) (ps : List Param)
  | append (beginning : Bool) (v c : Ptr) (ps : List Param)
  | delete (caseless : Bool) (v : Ptr) (ps : List Param)
  | sort (v : Ptr) (ys : List Ptr)
  /-- Import of a `*V` -/
  | copy (fuel : Nat) (v : Ptr)
  /-- UnmarshalJSON and UnmarshalBinary -/
  | load (v : Ptr) (b : Bytes)

/-- the pointers given -/
def HOp.args : HOp → List Ptr
  | .new _ => []
  | .get _ v _ => [v]
  | .set v c _ => [v, c]
  | .insert _ v c _ => [v, c]
  | .append _ v c _ => [v, c]
  | .delete _ v _ => [v]
  | .sort v _ => [v]
  | .copy _ v => [v]
  | .load v _ => [v]

/-- the pointer of the value that the call changes -/
def HOp.receiver : HOp → Ptr
  | .new _ => none
  | .get _ v _ => v
  | .set v _ _ => v
  | .insert _ v _ _ => v
  | .append _ v _ _ => v
  | .delete _ v _ => v
  | .sort v _ => v
  | .copy _ _ => none
  | .load v _ => v

/-- the child that the call stores -/
def HOp.child : HOp → Ptr
  | .set _ c _ => c
  | .insert _ _ c _ => c
  | .append _ _ c _ => c
  | _ => none

/-- the effect of the call and the pointer it returns -/
def HOp.run (E : Env) (h : Heap) : HOp → Heap × R Ptr
  | .new v => ((hbuild h v).1, .ok (hbuild h v).2)
  | .get cl v ps => hget E cl h v ps
  | .set v c ps => hsetAt E h v c ps
  | .insert after v c ps => hinsert E after h v c ps
  | .append beg v c ps => happendAt E beg h v c ps
  | .delete cl v ps => hdeleteAt E cl h v [] ps
  | .sort v ys => hreorder h v ys
  | .copy fuel v => hdeepCopy fuel h v
  | .load v b => hload E h v b

end JV
