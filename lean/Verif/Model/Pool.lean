import Verif.Model.Parse
/-!
The arena from which one `Unmarshal` takes its nodes, the parser with the arena threaded through it,
and the process-wide size predictor shared by all goroutines.

The parser here is the one of `Model/Parse.lean` where every JSON value also carries the Go object
(`Node`) that holds it. `Proofs/Pool.lean` shows that forgetting the nodes gives back `unmarshal`.
-/
namespace JV

/-- The Go object holding a JSON value: an element of the arena slice, `&p.pool[i]`, or the `i`-th `&V{}`
allocated on the heap during this call (the Go allocator is trusted to return new objects). -/
inductive Node where
  | slot (i : Nat)
  | fresh (i : Nat)
deriving DecidableEq, Repr

/-- jsonvalue_internal.go:76-83 `poolImpl`; `len` is `len(p.pool)`, `heap` counts the `&V{}` made so far.
`rawSize` is kept by the caller. -/
structure Pool where
  len : Nat
  count : Nat
  actual : Nat
  heap : Nat
deriving DecidableEq, Repr

namespace Pool
/-- jsonvalue_internal.go:89-94, once `cnt` is known -/
def new (cnt : Nat) : Pool := { len := cnt, count := cnt, actual := 0, heap := 0 }

/-- jsonvalue_internal.go:72-74 `globalPool.get` -/
def global (p : Pool) : Node × Pool := (.fresh p.heap, { p with heap := p.heap + 1 })

/-- jsonvalue_internal.go:99-108 `poolImpl.get`. The bound check of `p.pool[p.actual]` is not part of this
function; `C36_in_bounds` shows that it never fails. -/
def get (p : Pool) : Node × Pool :=
  if p.actual < p.count then (.slot p.actual, { p with actual := p.actual + 1 })
  else global { p with actual := p.actual + 1 }
end Pool

/-- A parsed value with its nodes. `leaf` holds a string, number, boolean or null; members are key, id and value
(jsonvalue.go:121-124). -/
inductive NV where
  | leaf (n : Node) (v : V)
  | arr (n : Node) (xs : List NV)
  | obj (n : Node) (incr : BitVec 32) (kvs : List (Bytes × BitVec 32 × NV))

/-- Outcome of a call that used the pool: the pool survives an error. -/
abbrev PR (α : Type) := R α × Pool

/-- Go's sequencing with the early return on an error -/
def PR.andThen {α β : Type} (x : PR α) (k : α → Pool → PR β) : PR β :=
  match x with
  | (.ok a, p) => k a p
  | (.err e, p) => (.err e, p)
  | (.panic, p) => (.panic, p)
  | (.diverge, p) => (.diverge, p)

/-- unmarshal.go:29-61, 119-154, 270-333; numbers come from the pool (unmarshal.go:838, 861, 884, after all
checks), strings, booleans and null from `NewString`, `NewBool`, `NewNull`, that is from the global pool
(new.go:26-30, 103-107, 112-115). -/
def parseScalarN (E : Env) (f : Nat) (c : UInt8) (t : Bytes) (p : Pool) : PR (Option (NV × Bytes)) :=
  match parseScalar E f c t with
  | .ok (some (v, t)) =>
    match v with
    | .num _ _ => (.ok (some (.leaf p.get.1 v, t)), p.get.2)
    | _ => (.ok (some (.leaf p.global.1 v, t)), p.global.2)
  | .ok none => (.ok none, p)
  | .err e => (.err e, p)
  | .panic => (.panic, p)
  | .diverge => (.diverge, p)

/-- `m[key] = e`, as `assign` -/
def assignN (e : Bytes × BitVec 32 × NV) : List (Bytes × BitVec 32 × NV) → List (Bytes × BitVec 32 × NV)
  | [] => [e]
  | x :: xs => if x.1 = e.1 then e :: xs else x :: assignN e xs

/-- object under construction, as `OSt` -/
structure OStN where
  key : Option Bytes := none
  colon : Bool := false
  incr : BitVec 32 := 0
  kvs : List (Bytes × BitVec 32 × NV) := []

/-- set.go:167-174 -/
def setMemberN (st : OStN) (k : Bytes) (v : NV) : OStN :=
  { key := none, colon := false, incr := st.incr + 1, kvs := assignN (k, st.incr + 1, v) st.kvs }

mutual
/-- unmarshal.go:86-166; `n` is the node of the array, allocated at line 82 -/
def arrLoopN (E : Env) : Nat → Bytes → Node → List NV → Pool → PR (NV × Bytes)
  | 0, _, _, _, p => (.diverge, p)
  | f+1, s, n, acc, p =>
    match skipBlanks s with
    | [] => (.err .notArrayValue, p)
    | c :: t =>
      if c = 0x5D then (.ok (.arr n acc, t), p)
      else if c = 0x2C then arrLoopN E f t n acc p
      else if c = 0x7B then
        PR.andThen (objLoopN E f t p.get.1 {} p.get.2) fun r p => arrLoopN E f r.2 n (acc ++ [r.1]) p
      else if c = 0x5B then
        PR.andThen (arrLoopN E f t p.get.1 [] p.get.2) fun r p => arrLoopN E f r.2 n (acc ++ [r.1]) p
      else
        PR.andThen (parseScalarN E (f+1) c t p) fun r p =>
          match r with
          | some (v, t) => arrLoopN E f t n (acc ++ [v]) p
          | none => (.err .rawBytesUnrecognized, p)
/-- unmarshal.go:209-348; `n` is the node of the object, allocated at line 178 -/
def objLoopN (E : Env) : Nat → Bytes → Node → OStN → Pool → PR (NV × Bytes)
  | 0, _, _, _, p => (.diverge, p)
  | f+1, s, n, st, p =>
    match skipBlanks s with
    | [] => (.err .notObjectValue, p)
    | c :: t =>
      if c = 0x7D then
        match st.key with
        | some _ => (.err .notObjectValue, p)
        | none => (.ok (.obj n st.incr st.kvs, t), p)
      else if c = 0x2C then
        match st.key with
        | some _ => (.err .notObjectValue, p)
        | none => objLoopN E f t n st p
      else if c = 0x3A then
        if st.colon then (.err .notObjectValue, p)
        else match st.key with
          | none => (.err .notObjectValue, p)
          | some _ => objLoopN E f t n { st with colon := true } p
      else if c = 0x22 then
        match st.key with
        | some k =>
          if !st.colon then (.err .notObjectValue, p)
          else match strLoop (f+1) t [] with
            | .ok (s, t) => objLoopN E f t n (setMemberN st k (.leaf p.global.1 (.str s))) p.global.2
            | .err e => (.err e, p)
            | .panic => (.panic, p)
            | .diverge => (.diverge, p)
        | none =>
          match strLoop (f+1) t [] with
          | .ok (s, t) => objLoopN E f t n { st with key := some s } p
          | .err e => (.err e, p)
          | .panic => (.panic, p)
          | .diverge => (.diverge, p)
      else if c = 0x7B ∨ c = 0x5B ∨ isNumStart c ∨ c = 0x74 ∨ c = 0x66 ∨ c = 0x6E then
        match st.key with
        | none => (.err .notObjectValue, p)
        | some k =>
          if !st.colon then (.err .notObjectValue, p)
          else if c = 0x7B then
            PR.andThen (objLoopN E f t p.get.1 {} p.get.2) fun r p => objLoopN E f r.2 n (setMemberN st k r.1) p
          else if c = 0x5B then
            PR.andThen (arrLoopN E f t p.get.1 [] p.get.2) fun r p => objLoopN E f r.2 n (setMemberN st k r.1) p
          else
            PR.andThen (parseScalarN E (f+1) c t p) fun r p =>
              match r with
              | some (v, t) => objLoopN E f t n (setMemberN st k v) p
              | none => (.err .rawBytesUnrecognized, p)
      else (.err .rawBytesUnrecognized, p)
end

/-- unmarshal.go:21-65 -/
def parseValueN (E : Env) (f : Nat) (c : UInt8) (t : Bytes) (p : Pool) : PR (NV × Bytes) :=
  if c = 0x7B then objLoopN E f t p.get.1 {} p.get.2
  else if c = 0x5B then arrLoopN E f t p.get.1 [] p.get.2
  else
    PR.andThen (parseScalarN E f c t p) fun r p =>
      match r with
      | some r => (.ok r, p)
      | none => (.err .rawBytesUnrecognized, p)

/-- unmarshal.go:14-76; the `&V{}` returned beside an error is not modelled -/
def unmarshalWithIterN (E : Env) (s : Bytes) (p : Pool) : PR NV :=
  match skipBlanks s with
  | [] => (.err .rawBytesUnrecognized, p)
  | c :: t =>
    PR.andThen (parseValueN E (s.length + 1) c t p) fun r p =>
      if skipBlanks r.2 = [] then (.ok r.1, p) else (.err .rawBytesUnrecognized, p)

/-- jsonvalue.go:245-251, 275-279: the parse with an arena of `cnt` slots, for a non-empty input -/
def parseIn (E : Env) (cnt : Nat) (b : Bytes) : PR NV := unmarshalWithIterN E b (Pool.new cnt)

mutual
/-- the JSON value without its nodes -/
def NV.toV : NV → V
  | .leaf _ v => v
  | .arr _ xs => .arr (NV.toVs xs)
  | .obj _ i kvs => .obj i (NV.toEnts kvs) none
def NV.toVs : List NV → List V
  | [] => []
  | x :: xs => x.toV :: NV.toVs xs
def NV.toEnts : List (Bytes × BitVec 32 × NV) → List Ent
  | [] => []
  | (k, i, v) :: r => ⟨k, i, v.toV⟩ :: NV.toEnts r
end

end JV
