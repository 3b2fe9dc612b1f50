import Verif.Model.Compare
/-!
How much work Equal, the comparisons of numbers and Contains do. For each function of `Compare` one that counts.

Counted: every call of Equal and Contains, every byte of two strings of the same length that are compared, every byte of the texts of two numbers
that are copied and read, every decimal digit of the two integers that are compared in the end, the bytes of every key that is looked up, every
element and member visited. Not counted: the time big.Int takes to turn digits into words and to multiply, the constant work in between.
-/
namespace JV

/-- the integers that decimal's `Cmp` compares: their decimal digits -/
def Dec.work (a b : Dec) : Nat :=
  (natDigits (a.rescale b).1.natAbs).length + (natDigits (a.rescale b).2.natAbs).length

/-- `bytes.Equal` and `==` on strings: the lengths first -/
def sameWork (s t : Bytes) : Nat := if s.length = t.length then s.length else 0

/-- compare.go:97-105 `numberEqual`, and the same in 60-65 -/
def numberWork' (D : DecFn) (s t : Bytes) : Nat :=
  sameWork s t + if s = t then 0 else s.length + t.length + (decOf D s).work (decOf D t)

/-- compare.go:12-15, 39-54 `GreaterThan` and `LessThanOrEqual`: no look at the texts first -/
def greaterThanWork (D : DecFn) : V → V → Nat
  | .num s _, .num t _ => 1 + s.length + t.length + (decOf D s).work (decOf D t)
  | _, _ => 1

/-- compare.go:20-34, 56-66 `GreaterThanOrEqual` and `LessThan` -/
def greaterOrEqualWork (D : DecFn) : V → V → Nat
  | .num s _, .num t _ => 1 + numberWork' D s t
  | _, _ => 1

mutual
/-- compare.go:71-95 `Equal` -/
def equalWork (D : DecFn) : V → V → Nat
  | .str s, w => 1 + match w with | .str t => sameWork s t | _ => 0
  | .num s _, w => 1 + match w with | .num t _ => numberWork' D s t | _ => 0
  | .obj _ kvs _, w => 1 + match w with | .obj _ kvs' _ => if kvs.length ≠ kvs'.length then 0 else equalWorkM D kvs kvs' | _ => 0
  | .arr xs, w => 1 + match w with | .arr ys => if xs.length ≠ ys.length then 0 else equalWorkL D xs ys | _ => 0
  | .bool _, _ => 1
  | .null, _ => 1
  | .nilp, _ => 1
  | .notExist, _ => 1
/-- compare.go:129-136 -/
def equalWorkL (D : DecFn) : List V → List V → Nat
  | x :: xs, y :: ys => equalWork D x y + if equal D x y then equalWorkL D xs ys else 0
  | _, _ => 0
/-- compare.go:112-121; a lookup in a Go map reads the key -/
def equalWorkM (D : DecFn) : List Ent → List Ent → Nat
  | [], _ => 0
  | ⟨k, _, c⟩ :: es, r =>
    k.length + 1 + match lookup k r with
      | none => 0
      | some e => equalWork D c e.v + if equal D c e.v then equalWorkM D es r else 0
end

/-- beta/contain.go:90-98: one turn of the callback for each element of `sub` -/
def runWork (D : DecFn) (xs : List V) : Nat → List V → Nat
  | _, [] => 0
  | i, y :: ys => 1 + equalWork D (xs[i]?.getD .notExist) y + if equal D (xs[i]?.getD .notExist) y then runWork D xs (i + 1) ys else 0

/-- beta/contain.go:100-104, the loop over the places where `sub` may start -/
def startsWork (D : DecFn) (xs ys : List V) : List Nat → Nat
  | [] => 0
  | s :: ss => 1 + runWork D xs s ys + if runFrom D xs s ys then 0 else startsWork D xs ys ss

/-- beta/contain.go:68-106 `arrayHasSubset` -/
def subsetWork (D : DecFn) (xs ys : List V) : Nat :=
  if ys.length = 0 then 0
  else if xs.length = ys.length then equalWork D (.arr ys) (.arr xs)
  else if ys.length > xs.length then 0
  else startsWork D xs ys (List.range (xs.length - ys.length + 1))

mutual
/-- beta/contain.go:12-47 `Contains` without a path -/
def containsWork (E : Env) (D : DecFn) : V → V → Nat
  | .nilp, _ => 1
  | .obj _ kvs _, v =>
    1 + match v with
      | .obj n kvs' low => objectSubsetWork E D (.obj n kvs' low) kvs
      | _ => 0
  | .arr ys, v => 1 + match v with | .arr xs => subsetWork D xs ys | _ => 0
  | .str s, v => 1 + equalWork D v (.str s)
  | .num s n, v => 1 + equalWork D v (.num s n)
  | .bool b, v => 1 + equalWork D v (.bool b)
  | .null, v => 1 + equalWork D v .null
  | .notExist, v => 1 + equalWork D v .notExist
/-- beta/contain.go:49-66 `objectHasSubset` -/
def objectSubsetWork (E : Env) (D : DecFn) (v : V) : List Ent → Nat
  | [] => 0
  | ⟨k, _, c⟩ :: es =>
    k.length + 1 + match get E v [.str k] with
      | .ok vv => containsWork E D c vv + match contains E D c vv with
        | .ok true => objectSubsetWork E D v es
        | _ => 0
      | _ => 0
end

end JV
