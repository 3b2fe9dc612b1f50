import Verif.Model.Access
/-!
compare.go and beta/contain.go. Numbers are compared as decimals of github.com/shopspring/decimal; that package is not part of the
repository. A `DecFn` stands for `decimal.NewFromString`; most theorems hold for every such function, and `newFromString` follows the
published source of v1.4.0 (go.mod:6).
-/
namespace JV

/-- decimal.Decimal: `m * 10^e` -/
structure Dec where
  m : Int
  e : Int
deriving DecidableEq, Repr

/-- `decimal.NewFromString` on the bytes of a text; `none` is an error -/
abbrev DecFn := Bytes → Option Dec

/-- `d, _ := decimal.NewFromString(s)`: with an error the decimal is `Decimal{}`, which counts as 0 -/
def decOf (D : DecFn) (s : Bytes) : Dec := (D s).getD ⟨0, 0⟩

/-- decimal `RescalePair`: both numbers with the smaller of the two exponents -/
def Dec.rescale (a b : Dec) : Int × Int :=
  let e := min a.e b.e
  (a.m * 10 ^ (a.e - e).toNat, b.m * 10 ^ (b.e - e).toNat)

/-- decimal `GreaterThan`, by `Cmp` -/
def Dec.gt (a b : Dec) : Bool := decide ((a.rescale b).1 > (a.rescale b).2)
/-- decimal `GreaterThanOrEqual`, by `Cmp` -/
def Dec.ge (a b : Dec) : Bool := decide ((a.rescale b).1 ≥ (a.rescale b).2)
/-- decimal `Equal`, by `Cmp` -/
def Dec.eq (a b : Dec) : Bool := decide ((a.rescale b).1 = (a.rescale b).2)

/-! ### compare.go -/

/-- the results of compare.go:47-54 `greaterThan`; `left.valueType` panics for nil, and so does `right.valueType` if it is looked at -/
def greaterThan' (D : DecFn) : V → V → R (Bool × Bool)
  | .nilp, _ => .panic
  | .num s _, .num t _ => .ok ((decOf D s).gt (decOf D t), true)
  | .num _ _, .nilp => .panic
  | _, _ => .ok (false, false)

/-- compare.go:56-66 `greaterOrEqualThan` -/
def greaterOrEqualThan' (D : DecFn) : V → V → R (Bool × Bool)
  | .nilp, _ => .panic
  | .num s _, .num t _ => if s = t then .ok (true, true) else .ok ((decOf D s).ge (decOf D t), true)
  | .num _ _, .nilp => .panic
  | _, _ => .ok (false, false)

/-- compare.go:12-15 -/
def greaterThan (D : DecFn) (v w : V) : R Bool := do
  let r ← greaterThan' D v w
  pure r.1
/-- compare.go:20-23 -/
def greaterThanOrEqual (D : DecFn) (v w : V) : R Bool := do
  let r ← greaterOrEqualThan' D v w
  pure r.1
/-- compare.go:28-34 -/
def lessThan (D : DecFn) (v w : V) : R Bool := do
  let r ← greaterOrEqualThan' D v w
  if !r.2 then pure false else pure (!r.1)
/-- compare.go:39-45 -/
def lessThanOrEqual (D : DecFn) (v w : V) : R Bool := do
  let r ← greaterThan' D v w
  if !r.2 then pure false else pure (!r.1)

/-- compare.go:97-105 `numberEqual` -/
def numberEqual (D : DecFn) (s t : Bytes) : Bool :=
  if s = t then true else (decOf D s).eq (decOf D t)

mutual
/-- compare.go:71-95 `Equal`; a type mismatch, nil on either side and NotExist give false. It never panics. -/
def equal (D : DecFn) : V → V → Bool
  | .str s, w => match w with | .str t => s == t | _ => false
  | .num s _, w => match w with | .num t _ => numberEqual D s t | _ => false
  | .obj _ kvs _, w => match w with | .obj _ kvs' _ => if kvs.length ≠ kvs'.length then false else equalM D kvs kvs' | _ => false
  | .arr xs, w => match w with | .arr ys => if xs.length ≠ ys.length then false else equalL D xs ys | _ => false
  | .bool b, w => match w with | .bool c => b == c | _ => false
  | .null, w => match w with | .null => true | _ => false
  | .nilp, _ => false
  | .notExist, _ => false
/-- compare.go:129-136, the loop of `arrayEqual` (the lengths are the same) -/
def equalL (D : DecFn) : List V → List V → Bool
  | [], _ => true
  | x :: xs, y :: ys => if equal D x y then equalL D xs ys else false
  | _ :: _, [] => false
/-- compare.go:112-121, the loop of `objectEqual`, in the iteration order of the left map -/
def equalM (D : DecFn) : List Ent → List Ent → Bool
  | [], _ => true
  | ⟨k, _, c⟩ :: es, r =>
    match lookup k r with
    | none => false
    | some e => if equal D c e.v then equalM D es r else false
end

/-! ### beta/contain.go -/

/-- beta/contain.go:90-98, the callback of `subEqual(start)` run over the elements of `sub` from index `i` on; `v.MustGet` cannot fail
because `start + i` is in range -/
def runFrom (D : DecFn) (xs : List V) : Nat → List V → Bool
  | _, [] => true
  | i, y :: ys => if equal D (xs[i]?.getD .notExist) y then runFrom D xs (i + 1) ys else false

/-- beta/contain.go:68-106 `arrayHasSubset` -/
def arrayHasSubset (D : DecFn) (xs ys : List V) : Bool :=
  if ys.length = 0 then true
  else if xs.length = ys.length then equal D (.arr ys) (.arr xs)
  else if ys.length > xs.length then false
  else (List.range (xs.length - ys.length + 1)).any fun start =>
    if xs.length - start < ys.length then false else runFrom D xs start ys

mutual
/-- beta/contain.go:12-47 `Contains` without a path, for a `*V` as second argument. `subV.ValueType()` panics for nil. -/
def contains (E : Env) (D : DecFn) : V → V → R Bool
  | .nilp, v => match v with | .nilp => .ok false | _ => .panic
  | .obj _ kvs _, v =>
    match v with
    | .obj n kvs' low => objectHasSubset E D (.obj n kvs' low) kvs
    | _ => .ok false
  | .arr ys, v => match v with | .arr xs => .ok (arrayHasSubset D xs ys) | _ => .ok false
  | .str s, v => .ok (equal D v (.str s))
  | .num s n, v => .ok (equal D v (.num s n))
  | .bool b, v => .ok (equal D v (.bool b))
  | .null, v => .ok (equal D v .null)
  | .notExist, v => .ok (equal D v .notExist)
/-- beta/contain.go:49-66 `objectHasSubset`: RangeObjects over the members of `sub` -/
def objectHasSubset (E : Env) (D : DecFn) (v : V) : List Ent → R Bool
  | [] => .ok true
  | ⟨k, _, c⟩ :: es =>
    match get E v [.str k] with
    | .err _ => .ok false
    | .ok vv =>
      match contains E D c vv with
      | .ok true => objectHasSubset E D v es
      | r => r
    | .panic => .panic
    | .diverge => .diverge
end

/-- beta/contain.go:12-47 `Contains(v, sub, inPath...)` for a `*V` as `sub`; the arguments of `contains` are the other way round -/
def containsAt (E : Env) (D : DecFn) (v sub : V) (path : List Param) : R Bool :=
  match v with
  | .nilp => .ok false
  | v =>
    match path with
    | [] => contains E D sub v
    | p :: ps =>
      match get E v (p :: ps) with
      | .err _ => .ok false
      | .ok .nilp => .panic
      | .ok w => contains E D sub w
      | .panic => .panic
      | .diverge => .diverge

/-! ### decimal.NewFromString -/

def isDigitB (c : UInt8) : Bool := 0x30 ≤ c && c ≤ 0x39
def isDot (c : UInt8) : Bool := c == 0x2E
def isE (c : UInt8) : Bool := c == 0x65 || c == 0x45

/-- one or more digits -/
def parseDigits (s : Bytes) : Option Nat :=
  if s.isEmpty || !s.all isDigitB then none else some (s.foldl (fun a c => 10 * a + (c.toNat - 0x30)) 0)

/-- `strconv.ParseInt(s, 10, _)` and `big.Int.SetString(s, 10)` without the range check: an optional sign and digits -/
def parseSigned : Bytes → Option Int
  | 0x2D :: s => (parseDigits s).map fun n => - (n : Int)
  | 0x2B :: s => (parseDigits s).map fun n => (n : Int)
  | s => (parseDigits s).map fun n => (n : Int)

def fitsInt32 (z : Int) : Bool := decide (-2 ^ 31 ≤ z) && decide (z < 2 ^ 31)

/-- the exponent: the text from the first `e` or `E` on -/
def parseExp : Bytes → Option Int
  | [] => some 0
  | _ :: t => (parseSigned t).bind fun z => if fitsInt32 z then some z else none

/-- `decimal.NewFromString`, v1.4.0: the text after the first `e` or `E` is the exponent, in 32 bits; at most one dot; the digits without
the dot are the mantissa and each digit after the dot lowers the exponent, which must fit 32 bits in the end -/
def newFromString : DecFn := fun s =>
  let body := s.takeWhile fun c => !isE c
  let rest := s.dropWhile fun c => !isE c
  match parseExp rest with
  | none => none
  | some x =>
    let ip := body.takeWhile fun c => !isDot c
    match body.dropWhile fun c => !isDot c with
    | [] =>
      match parseSigned ip with
      | none => none
      | some m => if fitsInt32 x then some ⟨m, x⟩ else none
    | _ :: fp =>
      if fp.any isDot then none
      else match parseSigned (ip ++ fp) with
        | none => none
        | some m => if fitsInt32 (x - fp.length) then some ⟨m, x - fp.length⟩ else none

end JV
