import Verif.Model.Modify
/-!
The steps that reading, setting and deleting a member of an object takes: every access to a map (lookup, assignment,
`delete`, one turn of a `range`) and every `strings.ToLower` is one step. Simplified: Go's own work inside one access
is not modelled; in particular the first turn of a `range` may have to walk over room left by deleted keys.
Each function gives the outcome of its relative in Model/Access and Model/Modify, and the steps.
-/
namespace JV

/-- jsonvalue.go:165-176 `addCaselessKey` -/
def addCaselessW (E : Env) (low : Low) (k : Bytes) : Low × Nat :=
  match low with
  | none => (none, 0)
  | some m => (some (lowAdd (E.toLower k) k m), match lowGet (E.toLower k) m with | none => 4 | some _ => 3)

/-- jsonvalue.go:178-193 `delCaselessKey` -/
def delCaselessW (E : Env) (low : Low) (k : Bytes) : Low × Nat :=
  match low with
  | none => (none, 0)
  | some m => (some (lowDel (E.toLower k) k m),
      match lowGet (E.toLower k) m with
      | none => 2
      | some ks => if (ks.filter (· ≠ k)).isEmpty then 4 else 3)

/-- get.go:65-67: the loop of `initCaselessStorage` over the keys, the index being there -/
def fillIndexW (E : Env) : List Ent → List (Bytes × List Bytes) → List (Bytes × List Bytes) × Nat
  | [], m => (m, 0)
  | e :: es, m =>
    let r := addCaselessW E (some m) e.key
    let s := fillIndexW E es (r.1.getD m)
    (s.1, 1 + r.2 + s.2)

/-- get.go:60-68 `initCaselessStorage` -/
def initCaselessW (E : Env) (kvs : List Ent) (low : Low) : List (Bytes × List Bytes) × Nat :=
  match low with
  | some m => (m, 0)
  | none => fillIndexW E kvs []

/-- get.go:88-93: a turn of the range and a lookup for each key -/
def firstPresentW (kvs : List Ent) : List Bytes → Option Bytes × Nat
  | [] => (none, 0)
  | k :: ks => if (lookup k kvs).isSome then (some k, 2) else ((firstPresentW kvs ks).1, 2 + (firstPresentW kvs ks).2)

/-- get.go:70-96 `getFromObjectChildren` -/
def findKeyW (E : Env) (cl : Bool) (kvs : List Ent) (low : Low) (key : Bytes) : (Low × Option Bytes) × Nat :=
  if (lookup key kvs).isSome then ((low, some key), 1)
  else if !cl then ((low, none), 1)
  else
    let i := initCaselessW E kvs low
    match lowGet (E.toLower key) i.1 with
    | none => ((some i.1, none), 1 + i.2 + 2)
    | some ks => ((some i.1, (firstPresentW kvs ks).1), 1 + i.2 + 2 + (firstPresentW kvs ks).2)

/-- insert_append_delete.go:524-556 `delFromObjectChildren`: the lookups are those of `getFromObjectChildren` -/
def delKeyW (E : Env) (cl : Bool) (n : BitVec 32) (kvs : List Ent) (low : Low) (key : Bytes) : V × Nat :=
  match findKeyW E cl kvs low key with
  | ((low, some k), s) => (.obj n (erase k kvs) (delCaselessW E low k).1, s + 1 + (delCaselessW E low k).2)
  | ((low, none), s) => (.obj n kvs low, s)

/-- set.go:167-174 `setToObjectChildren` -/
def setKeyW (E : Env) (n : BitVec 32) (kvs : List Ent) (low : Low) (k : Bytes) (c : V) : V × Nat :=
  (.obj (n + 1) (assign ⟨k, n + 1, c⟩ kvs) (addCaselessW E low k).1, 1 + (addCaselessW E low k).2)

end JV
