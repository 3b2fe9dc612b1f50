import Verif.Model.Parse
/-!
Reading a value: path parameters, Get (plain and caseless), type predicates and typed accessors.

A `*V` that points into a tree is represented by the *location* of the node, a list of `Step`s. Functions that may change
the tree (caseless access fills a cache) return the tree afterwards as well, also when they fail.
-/
namespace JV

/-- A path parameter (`any`). `int` stands for every signed integer kind, `uint` for every unsigned kind except uintptr
(both widened to 64 bits), `str` for every string kind, `slice` for a slice or array of anything, `nil` for a nil interface,
`other` for everything else. -/
inductive Param where
  | nil
  | int (i : BitVec 64)
  | uint (u : BitVec 64)
  | str (s : Bytes)
  | slice (ps : List Param)
  | other

/-- conv.go:136-149 `anyToInt`; `int` is 64 bits, so a large unsigned value wraps to a negative one. -/
def anyToInt : Param → R Int
  | .nil => .err .parameterError
  | .int i => .ok i.toInt
  | .uint u => .ok u.toInt
  | _ => .err .other

/-- conv.go:151-161 `anyToString` -/
def anyToString : Param → R Bytes
  | .str s => .ok s
  | _ => .err .parameterError

/-- where a child is inside its parent -/
inductive Step where
  | key (k : Bytes)
  | idx (i : Nat)
deriving DecidableEq, Repr

/-- `children.object[k].v` or `children.arr[i]` -/
def V.child : V → Step → Option V
  | .obj _ kvs _, .key k => (lookup k kvs).map Ent.v
  | .arr xs, .idx i => xs[i]?
  | _, _ => none

/-- the entries with the value of key `k` replaced in place (its id stays) -/
def putKey (k : Bytes) (c : V) : List Ent → List Ent
  | [] => []
  | e :: es => if e.key = k then ⟨e.key, e.id, c⟩ :: es else e :: putKey k c es

/-- the tree after the child at `s` was changed to `c` through its pointer -/
def V.put : V → Step → V → V
  | .obj n kvs low, .key k, c => .obj n (putKey k c kvs) low
  | .arr xs, .idx i, c => .arr (xs.set i c)
  | v, _, _ => v

/-- the node at a location -/
def V.at (v : V) : List Step → Option V
  | [] => some v
  | s :: ss => match v.child s with
    | some c => c.at ss
    | none => none

/-- run an operation on the node at a location (a method call through the pointer); the location must exist -/
def V.modify {α : Type} (v : V) (f : V → V × R α) : List Step → V × R α
  | [] => f v
  | s :: ss => match v.child s with
    | some c => (v.put s (c.modify f ss).1, (c.modify f ss).2)
    | none => (v, .panic)

/-- set.go:372-391 `posAtIndexForRead` with `le = len(v.children.arr)`; `-1` means out of range.
`pos += le` cannot overflow because it only happens for negative `pos`. -/
def posForRead (le : Nat) (pos : Int) : Int :=
  if le = 0 then -1
  else if pos < 0 then
    let pos := pos + le
    if pos < 0 then -1 else pos
  else if pos ≥ le then -1
  else pos

/-! the index of lower-cased keys -/

/-- `m[low]` on `map[string]map[string]struct{}` -/
def lowGet (l : Bytes) : List (Bytes × List Bytes) → Option (List Bytes)
  | [] => none
  | (l', ks) :: m => if l' = l then some ks else lowGet l m

/-- jsonvalue.go:165-177, the body of `addCaselessKey` when the index exists: add `k` under `l = strings.ToLower(k)` -/
def lowAdd (l k : Bytes) : List (Bytes × List Bytes) → List (Bytes × List Bytes)
  | [] => [(l, [k])]
  | (l', ks) :: m => if l' = l then (l', if ks.contains k then ks else ks ++ [k]) :: m else (l', ks) :: lowAdd l k m

/-- jsonvalue.go:178-193, the body of `delCaselessKey` when the index exists; an entry that becomes empty is removed -/
def lowDel (l k : Bytes) : List (Bytes × List Bytes) → List (Bytes × List Bytes)
  | [] => []
  | (l', ks) :: m =>
    if l' = l then
      if (ks.filter (· ≠ k)).isEmpty then m else (l', ks.filter (· ≠ k)) :: m
    else (l', ks) :: lowDel l k m

abbrev Low := Option (List (Bytes × List Bytes))

/-- jsonvalue.go:165-177 `addCaselessKey` -/
def addCaseless (E : Env) (low : Low) (k : Bytes) : Low := low.map (lowAdd (E.toLower k) k)
/-- jsonvalue.go:178-193 `delCaselessKey` -/
def delCaseless (E : Env) (low : Low) (k : Bytes) : Low := low.map (lowDel (E.toLower k) k)

/-- get.go:60-68 `initCaselessStorage` -/
def initCaseless (E : Env) (kvs : List Ent) (low : Low) : List (Bytes × List Bytes) :=
  match low with
  | some m => m
  | none => kvs.foldl (fun m e => lowAdd (E.toLower e.key) e.key m) []

/-- get.go:88-93 first key of the inner map (in iteration order) that is present in the object -/
def firstPresent (kvs : List Ent) : List Bytes → Option Bytes
  | [] => none
  | k :: ks => if (lookup k kvs).isSome then some k else firstPresent kvs ks

/-- get.go:70-96 `getFromObjectChildren`: the index afterwards, and the key under which the child was found -/
def findKey (E : Env) (cl : Bool) (kvs : List Ent) (low : Low) (key : Bytes) : Low × Option Bytes :=
  if (lookup key kvs).isSome then (low, some key)
  else if !cl then (low, none)
  else
    let m := initCaseless E kvs low
    match lowGet (E.toLower key) m with
    | none => (some m, none)
    | some ks => (some m, firstPresent kvs ks)

/-- get.go:98-133 `getInCurrentValue`, `getInCurrentArray`, `getInCurrentObject` (and childAtIndex, set.go:393-399):
the tree afterwards and the step to the child. A nil value panics (`v.valueType`). -/
def locate (E : Env) (cl : Bool) (v : V) (p : Param) : V × R Step :=
  match v with
  | .nilp => (v, .panic)
  | .arr xs =>
    match anyToInt p with
    | .ok pos =>
      let pos := posForRead xs.length pos
      if pos < 0 then (v, .err .outOfRange)
      else if pos.toNat < xs.length then (v, .ok (.idx pos.toNat)) else (v, .panic)
    | .err e => (v, .err e)
    | _ => (v, .panic)
  | .obj n kvs low =>
    match anyToString p with
    | .ok key =>
      match findKey E cl kvs low key with
      | (low, some k) => (.obj n kvs low, .ok (.key k))
      | (low, none) => (.obj n kvs low, .err .notFound)
    | .err e => (v, .err e)
    | _ => (v, .panic)
  | _ => (v, .err .other)

/-- does a slice or array stand here, conv.go:163-170 -/
def Param.isSlice : Param → Bool
  | .slice _ => true
  | _ => false

mutual
/-- get.go:42-58 `get` called with a single parameter: the tree afterwards and the location of the result. An empty slice stands
for a single nil parameter (conv.go:172-174). -/
def resolve1 (E : Env) (cl : Bool) (v : V) : Param → V × R (List Step)
  | .slice qs =>
    if qs.isEmpty then ((locate E cl v .nil).1, do let s ← (locate E cl v .nil).2; pure [s])
    else resolve E cl v qs
  | p => ((locate E cl v p).1, do let s ← (locate E cl v p).2; pure [s])
termination_by structural p => p
/-- get.go:42-58 `get` for a parameter list. The empty list cannot be written in Go. -/
def resolve (E : Env) (cl : Bool) (v : V) : List Param → V × R (List Step)
  | [] => (v, .panic)
  | p :: rest =>
    if rest.isEmpty then resolve1 E cl v p
    else if p.isSlice then (v, .err .multipleParam)
    else match locate E cl v p with
    | (v, .ok s) =>
      match v.child s with
      | none => (v, .panic)
      | some c => (v.put s (resolve E cl c rest).1, do let l ← (resolve E cl c rest).2; pure (s :: l))
    | (v, .err e) => (v, .err e)
    | (v, .panic) => (v, .panic)
    | (v, .diverge) => (v, .diverge)
termination_by structural ps => ps
end

/-- the node at a location that was just resolved -/
def fetch (v : V) (r : R (List Step)) : R V := do
  let l ← r
  match v.at l with
  | some c => .ok c
  | none => .panic

/-- get.go:28-30 `Get` (`cl = false`) and get.go:427-429 `Caseless().Get`: the tree afterwards and the result -/
def getC (E : Env) (cl : Bool) (v : V) (ps : List Param) : V × R V :=
  ((resolve E cl v ps).1, fetch (resolve E cl v ps).1 (resolve E cl v ps).2)

/-- get.go:28-30 `Get`; that it leaves the value alone is C43 -/
def get (E : Env) (v : V) (ps : List Param) : R V := (getC E false v ps).2

/-- get.go:37-40 `MustGet` -/
def mustGet (E : Env) (v : V) (ps : List Param) : R V :=
  match get E v ps with
  | .ok c => .ok c
  | .err _ => .ok .notExist
  | .panic => .panic
  | .diverge => .diverge

/-- get.go:14-23 `Len` -/
def len : V → R Nat
  | .nilp => .panic
  | .arr xs => .ok xs.length
  | .obj _ kvs _ => .ok kvs.length
  | _ => .ok 0

/-! ## typed access -/

/-- a nil receiver panics, otherwise `f` -/
def onV {α : Type} (v : V) (f : V → α) : R α :=
  match v with
  | .nilp => .panic
  | v => .ok (f v)

/-- jsonvalue.go:287-385 the predicates -/
def isObject (v : V) : R Bool := onV v fun | .obj .. => true | _ => false
def isArray (v : V) : R Bool := onV v fun | .arr .. => true | _ => false
def isString (v : V) : R Bool := onV v fun | .str .. => true | _ => false
def isNumber (v : V) : R Bool := onV v fun | .num .. => true | _ => false
def isFloat (v : V) : R Bool := onV v fun | .num _ n => n.floated | _ => false
def isInteger (v : V) : R Bool := onV v fun | .num _ n => !n.floated | _ => false
def isNegative (v : V) : R Bool := onV v fun | .num _ n => n.negative | _ => false
def isPositive (v : V) : R Bool := onV v fun | .num _ n => !n.negative | _ => false
/-- jsonvalue.go:363-371 -/
def greaterThanInt64Max (v : V) : R Bool := onV v fun
  | .num _ n => if n.negative then false else decide (n.u64 > 0x7fffffffffffffff#64)
  | _ => false
def isBoolean (v : V) : R Bool := onV v fun | .bool _ => true | _ => false
def isNull (v : V) : R Bool := onV v fun | .null => true | _ => false

/-- unmarshal.go:354-367 `parseNumber(v, p)` on `srcByte = s`: the whole text must be one number -/
def parseNumberV (E : Env) (s : Bytes) : R V := do
  let (n, text, rest) ← parseNumber E s
  if rest ≠ [] then .err .other else pure (.num text n)

/-- get.go:502-515 `getNumberFromNotNumberValue`, with unmarshal.go:370-374 `newFromNumber` -/
def numberFromNotNumber (E : Env) (v : V) : R V :=
  match v with
  | .nilp => .panic
  | .str s =>
    if s = [] then .ok (newInt64 E 0)
    else match parseNumberV E (E.trimSpace s) with
      | .ok w => .ok w
      | .err _ => .ok (newInt64 E 0)
      | .panic => .panic
      | .diverge => .diverge
  | _ => .ok (newInt64 E 0)

/-- get.go:517-533 `getNumberAndErrorFromValue` -/
def numberAndErr (E : Env) (v : V) : R (V × Option Err) :=
  match v with
  | .nilp => .panic
  | .num src n => .ok (.num src n, none)
  | .str s =>
    match parseNumberV E (E.trimSpace s) with
    | .ok w => .ok (w, some .typeNotMatch)
    | .err _ => .ok (newInt64 E 0, some .parseNumberFromString)
    | .panic => .panic
    | .diverge => .diverge
  | _ => .ok (newInt64 E 0, some .typeNotMatch)

/-- the number record of a value; jsonvalue.go:404-477 the accessors `Int()` … first turn a non-number into a number -/
def numRec (E : Env) (v : V) : R Num :=
  match v with
  | .num _ n => .ok n
  | v => do
    match ← numberFromNotNumber E v with
    | .num _ n => .ok n
    | _ => .panic

/-- jsonvalue.go:404-477; `Int()`/`Uint()` are 64 bits wide -/
def int64 (E : Env) (v : V) : R (BitVec 64) := do return (← numRec E v).i64
def uint64 (E : Env) (v : V) : R (BitVec 64) := do return (← numRec E v).u64
def int32 (E : Env) (v : V) : R (BitVec 32) := do return (← numRec E v).i64.truncate 32
def uint32 (E : Env) (v : V) : R (BitVec 32) := do return (← numRec E v).u64.truncate 32
def float64 (E : Env) (v : V) : R (BitVec 64) := do return (← numRec E v).f64
def float32 (E : Env) (v : V) : R (BitVec 32) := do return E.f64ToF32 (← numRec E v).f64

def litTrueS : Bytes := [0x74, 0x72, 0x75, 0x65]

/-- `f != 0` on float64 -/
def fltNonzero (f : BitVec 64) : Bool := f != 0#64 && f != 0x8000000000000000#64

/-- get.go:535-552 `getBoolAndErrorFromValue`, the boolean and the error -/
def boolAndErr (v : V) : R (Bool × Option Err) :=
  match v with
  | .nilp => .panic
  | .num _ n => .ok (fltNonzero n.f64, some .typeNotMatch)
  | .str s => .ok (decide (s = litTrueS), some .typeNotMatch)
  | .bool b => .ok (b, none)
  | _ => .ok (false, some .typeNotMatch)

/-- jsonvalue.go:391-397 `Bool` -/
def bool (v : V) : R Bool := do return (← boolAndErr v).1

/-- What a `GetXxx` function returns: a value and an error. -/
abbrev Ret (α : Type) := R (α × Option Err)

/-- the common shape of the typed getters, get.go:138-371, with Caseless() 411-490: `Get`, then convert; `zero` is returned with a `Get` error -/
def typedGet {α : Type} (E : Env) (cl : Bool) (zero : α) (conv : V → Ret α) (v : V) (ps : List Param) : Ret α :=
  match (getC E cl v ps).2 with
  | .ok c => conv c
  | .err e => .ok (zero, some e)
  | .panic => .panic
  | .diverge => .diverge

/-- get.go:178-301: number getters -/
def convNum {α : Type} (E : Env) (f : V → R α) (c : V) : R (α × Option Err) := do
  let (w, e) ← numberAndErr E c
  let x ← f w
  pure (x, e)

/-- get.go:178-189 (`GetInt`), 210-221 (`GetInt64`) -/
def getInt64 (E : Env) (cl : Bool) (v : V) (ps : List Param) : Ret (BitVec 64) := typedGet E cl 0 (convNum E (int64 E)) v ps
/-- get.go:194-205 (`GetUint`), 226-237 (`GetUint64`) -/
def getUint64 (E : Env) (cl : Bool) (v : V) (ps : List Param) : Ret (BitVec 64) := typedGet E cl 0 (convNum E (uint64 E)) v ps
/-- get.go:242-253 `GetInt32` -/
def getInt32 (E : Env) (cl : Bool) (v : V) (ps : List Param) : Ret (BitVec 32) := typedGet E cl 0 (convNum E (int32 E)) v ps
/-- get.go:258-269 `GetUint32` -/
def getUint32 (E : Env) (cl : Bool) (v : V) (ps : List Param) : Ret (BitVec 32) := typedGet E cl 0 (convNum E (uint32 E)) v ps
/-- get.go:274-285 `GetFloat64` -/
def getFloat64 (E : Env) (cl : Bool) (v : V) (ps : List Param) : Ret (BitVec 64) := typedGet E cl 0 (convNum E (float64 E)) v ps
/-- get.go:290-301 `GetFloat32` -/
def getFloat32 (E : Env) (cl : Bool) (v : V) (ps : List Param) : Ret (BitVec 32) := typedGet E cl 0 (convNum E (float32 E)) v ps
/-- get.go:306-317 `getBool` -/
def getBool (E : Env) (cl : Bool) (v : V) (ps : List Param) : Ret Bool := typedGet E cl false boolAndErr v ps
/-- get.go:160-173 `getString` -/
def getString (E : Env) (cl : Bool) (v : V) (ps : List Param) : Ret Bytes :=
  typedGet E cl [] (fun | .nilp => .panic | .str s => .ok (s, none) | _ => .ok ([], some .typeNotMatch)) v ps
/-- get.go:322-335 `getNull` -/
def getNull (E : Env) (cl : Bool) (v : V) (ps : List Param) : Ret Unit :=
  typedGet E cl () (fun | .nilp => .panic | .null => .ok ((), none) | _ => .ok ((), some .typeNotMatch)) v ps
/-- get.go:340-353 `getObject` -/
def getObject (E : Env) (cl : Bool) (v : V) (ps : List Param) : Ret V :=
  typedGet E cl .notExist (fun | .nilp => .panic | .obj n k l => .ok (.obj n k l, none) | _ => .ok (.notExist, some .typeNotMatch)) v ps
/-- get.go:358-371 `getArray` -/
def getArray (E : Env) (cl : Bool) (v : V) (ps : List Param) : Ret V :=
  typedGet E cl .notExist (fun | .nilp => .panic | .arr xs => .ok (.arr xs, none) | _ => .ok (.notExist, some .typeNotMatch)) v ps

end JV
