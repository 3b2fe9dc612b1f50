import Verif.Model.Heap
import Verif.Model.Compare
/-!
compare.go `Equal` and beta/contain.go `Contains` on objects in memory, which may be shared and may contain themselves. The first number bounds
the nested calls. Maps are gone through in list order; theorems quantify over that order.
-/
namespace JV

/-- compare.go:129-136, the loop of `arrayEqual` (the lengths are the same) -/
def hequalL (rec : Ptr → Ptr → R Bool) : List Ptr → List Ptr → R Bool
  | [], _ => .ok true
  | _ :: _, [] => .panic
  | x :: xs, y :: ys =>
    match rec x y with
    | .ok true => hequalL rec xs ys
    | r => r

/-- compare.go:112-121, the loop of `objectEqual`, in the iteration order of the left map -/
def hequalM (rec : Ptr → Ptr → R Bool) : List HEnt → List HEnt → R Bool
  | [], _ => .ok true
  | e :: es, r =>
    match hlookup e.key r with
    | none => .ok false
    | some e' =>
      match rec e.v e'.v with
      | .ok true => hequalM rec es r
      | r => r

/-- compare.go:71-95 `Equal` -/
def hequal (D : DecFn) : Nat → Heap → Ptr → Ptr → R Bool
  | 0, _, _, _ => .diverge
  | n + 1, h, p, q =>
    match p, q with
    | none, _ => .ok false
    | some _, none => .ok false
    | some a, some b =>
      match h[a]?, h[b]? with
      | some c, some c' =>
        match c, c' with
        | .str s, .str t => .ok (s == t)
        | .num s _, .num t _ => .ok (numberEqual D s t)
        | .obj _ kvs _, .obj _ kvs' _ => if kvs.length ≠ kvs'.length then .ok false else hequalM (hequal D n h) kvs kvs'
        | .arr xs, .arr ys => if xs.length ≠ ys.length then .ok false else hequalL (hequal D n h) xs ys
        | .bool x, .bool y => .ok (x == y)
        | .null, .null => .ok true
        | _, _ => .ok false
      | _, _ => .panic

/-- beta/contain.go:100-105, the loop over the places where the part may begin -/
def hanyStart (f : Nat → R Bool) : List Nat → R Bool
  | [] => .ok false
  | i :: is =>
    match f i with
    | .ok false => hanyStart f is
    | r => r

/-- beta/contain.go:90-98, the callback of `subEqual(start)`: `vv.Equal(subV)` element by element; `v.MustGet` cannot fail here -/
def hrunFrom (rec : Ptr → Ptr → R Bool) (xs : List Ptr) : Nat → List Ptr → R Bool
  | _, [] => .ok true
  | i, y :: ys =>
    match xs[i]? with
    | none => .panic
    | some x =>
      match rec x y with
      | .ok true => hrunFrom rec xs (i + 1) ys
      | r => r

/-- beta/contain.go:49-66 `objectHasSubset`: RangeObjects over the members of `sub`; `v.Get(k)` on an object (get.go) is a look into its map -/
def hobjectHas (rec : Ptr → Ptr → R Bool) (r : List HEnt) : List HEnt → R Bool
  | [] => .ok true
  | e :: es =>
    match hlookup e.key r with
    | none => .ok false
    | some e' =>
      match rec e'.v e.v with
      | .ok true => hobjectHas rec r es
      | r => r

/-- beta/contain.go:12-47 `Contains` without a path for a `*V` as `sub`, and 68-106 `arrayHasSubset` -/
def hcontains (D : DecFn) : Nat → Heap → Ptr → Ptr → R Bool
  | 0, _, _, _ => .diverge
  | n + 1, h, v, sub =>
    match v, sub with
    | none, _ => .ok false
    | some _, none => .panic
    | some a, some b =>
      match h[a]?, h[b]? with
      | some c, some c' =>
        match c, c' with
        | .obj _ kvs _, .obj _ kvs' _ => hobjectHas (hcontains D n h) kvs kvs'
        | .arr xs, .arr ys =>
          if ys.length = 0 then .ok true
          else if xs.length = ys.length then hequal D n h sub v
          else if ys.length > xs.length then .ok false
          else hanyStart (fun start => if xs.length - start < ys.length then .ok false else hrunFrom (hequal D n h) xs start ys) (List.range (xs.length - ys.length + 1))
        | _, _ => hequal D n h v sub
      | _, _ => .panic

end JV
