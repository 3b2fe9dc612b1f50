import Verif.Model.Marshal
/-!
iteration.go and SortArray. A callback is a function that may keep state of type `σ` of its own; callbacks that change the value being
iterated over are in Model/RangeMut.
-/
namespace JV

/-- a callback: its state, the key or index, the child; returns the new state and whether to go on -/
abbrev Callback (σ α : Type) := σ → α → V → σ × Bool

/-- the loops `ok := callback(k, c); if !ok { break }` -/
def visit {σ α : Type} (f : Callback σ α) : List (α × V) → σ → σ
  | [], s => s
  | (k, c) :: l, s =>
    match f s k c with
    | (s', true) => visit f l s'
    | (s', false) => s'

/-- iteration.go:24-38 `RangeObjects`; `none` is a nil callback -/
def rangeObjects {σ : Type} (v : V) (cb : Option (Callback σ Bytes)) (s : σ) : R σ := do
  let ok ← isObject v
  if !ok then pure s
  else match cb, v with
    | some f, .obj _ kvs _ => pure (visit f (kvs.map fun e => (e.key, e.v)) s)
    | _, _ => pure s

/-- iteration.go:45-77 `RangeObjectsBySetSequence`; sort.Slice compares with `<=` -/
def rangeObjectsBySet {σ : Type} (S : SortFn) (v : V) (cb : Option (Callback σ Bytes)) (s : σ) : R σ := do
  let ok ← isObject v
  if !ok then pure s
  else match cb, v with
    | some f, .obj _ kvs _ => pure (visit f ((sortBy S (fun a b => decide (a.id ≤ b.id)) kvs).map fun e => (e.key, e.v)) s)
    | _, _ => pure s

/-- `for i, child := range arr`, from index `i` on -/
def indexed (i : Nat) : List V → List (Nat × V)
  | [] => []
  | x :: xs => (i, x) :: indexed (i + 1) xs

/-- iteration.go:113-126 `RangeArray` -/
def rangeArray {σ : Type} (v : V) (cb : Option (Callback σ Nat)) (s : σ) : R σ := do
  let ok ← isArray v
  if !ok then pure s
  else match cb, v with
    | some f, .arr xs => pure (visit f (indexed 0 xs) s)
    | _, _ => pure s

/-- iteration.go:98-104 `ForRangeObj`: the map returned, in some iteration order -/
def forRangeObj (v : V) : R (List (Bytes × V)) :=
  match v with
  | .nilp => .panic
  | .obj _ kvs _ => .ok (kvs.map fun e => (e.key, e.v))
  | _ => .ok []

/-- iteration.go:147-150 `ForRangeArr` -/
def forRangeArr (v : V) : R (List V) :=
  match v with
  | .nilp => .panic
  | .arr xs => .ok xs
  | _ => .ok []

/-- sort.go:24-37 `SortArray` with the sort interface of 39-65: the value afterwards; `none` is a nil less function -/
def sortArray (S : SortFn) (v : V) (less : Option (V → V → Bool)) : R V := do
  match less with
  | none => pure v
  | some f =>
    let ok ← isArray v
    if !ok then pure v
    else match v with
      | .arr xs => pure (.arr (sortBy S f xs))
      | _ => pure v

end JV
