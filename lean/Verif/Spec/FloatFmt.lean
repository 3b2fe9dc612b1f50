import Verif.Spec.Compare
import Verif.Model.FloatFmt
/-!
What the text of a float has to be.
-/
namespace Spec
open JV

/-- Fact about strconv: digits without a leading zero, none for a number that is (or is rounded to) zero; float64 exponents have at most three
digits. -/
def GoodDigits (g : FDigits) : Prop :=
  Digits g.d ∧ (∀ u, g.d ≠ 0x30 :: u) ∧ (g.d = [] → g.dp ≤ 0) ∧ -998 ≤ g.dp ∧ g.dp ≤ 999

/-- the number `±0.d₀d₁… × 10^dp` -/
def digitsValue (neg : Bool) (g : FDigits) : Rat := (if neg then -1 else 1) * (decVal g.d : Rat) * (10 : Rat) ^ (g.dp - g.d.length)

def minus (neg : Bool) : Bytes := if neg then [0x2D] else []

/-- the decimal digits of a number, without leading zeros -/
def natText (n : Nat) : Bytes := if n < 10 then [UInt8.ofNat (0x30 + n)] else natText (n / 10) ++ [UInt8.ofNat (0x30 + n % 10)]

/-- one digit, a dot if there are more, and the others -/
def mantissa : Bytes → Bytes
  | [] => []
  | [c] => [c]
  | c :: u => c :: 0x2E :: u

/-- Number::toString of ECMAScript 6 (7.1.12.1), which encoding/json documents as the format of floats, for the digits `d` (k of them) and the
exponent `n`; encoding/json keeps the sign of zero. -/
def esText (neg : Bool) (d : Bytes) (n : Int) : Bytes :=
  let k : Int := d.length
  if d = [] then minus neg ++ [0x30]
  else if k ≤ n ∧ n ≤ 21 then minus neg ++ d ++ List.replicate (n - k).toNat 0x30
  else if 0 < n ∧ n ≤ 21 then minus neg ++ d.take n.toNat ++ 0x2E :: d.drop n.toNat
  else if -6 < n ∧ n ≤ 0 then minus neg ++ 0x30 :: 0x2E :: List.replicate (-n).toNat 0x30 ++ d
  else minus neg ++ mantissa d ++
    0x65 :: (if n - 1 < 0 then 0x2D else 0x2B) :: natText (n - 1).natAbs

/-- the bits of a float without its sign; their order is that of the absolute values -/
def magnitude (f : BitVec 64) : Nat := f.toNat % 2 ^ 63

/-- Facts about strconv: the digits are of the size of the float. They say whether it is zero, at least 1e21 (bits 0x444B1AE4D6E2EF50), or below
1e-6 (0x3EB0C6F7A0B5ED8D); but the float32 next to 1e-6 is below 1e-6 and has the digits of 1e-6. -/
structure SizeOK (w : Bool) (f : BitVec 64) (g : FDigits) : Prop where
  zero : g.d = [] ↔ fltNonzero f = false
  big : g.d ≠ [] → (22 ≤ g.dp ↔ 0x444B1AE4D6E2EF50 ≤ magnitude f)
  small : g.d ≠ [] → 0x3EB0C6F7A0B5ED8D ≤ magnitude f → -5 ≤ g.dp
  tiny : g.d ≠ [] → magnitude f < 0x3EB0C6F7A0B5ED8D → g.dp ≤ if w then -5 else -6

/-- the digits strconv finds for a float when it is asked for the fewest -/
def shortest (O : DigitFn) (w : Bool) (f : BitVec 64) : FDigits := O w f 0x65 (-1)

/-- Facts about strconv at `f`: the fewest digits do not depend on the format, there are at most 17 of them, and they are of the size of `f` -/
structure Shortest (O : DigitFn) (w : Bool) (f : BitVec 64) : Prop where
  same : ∀ fmt, O w f fmt (-1) = shortest O w f
  good : GoodDigits (shortest O w f)
  few : (shortest O w f).d.length ≤ 17
  size : SizeOK w f (shortest O w f)

/-- the text of a float in encoding/json -/
def jsonFloatText (O : DigitFn) : FloatText := fun w f => esText f.msb (shortest O w f).d (shortest O w f).dp

/-- Fact about Go: converting an integer to float64 rounds as ParseFloat rounds its decimal text. -/
def IntConv (E : Env) : Prop := ∀ neg ip t, JInt neg ip t → decVal ip < 2 ^ 64 →
  E.parseFloat t = some (if neg then fneg (E.u64ToF64 (BitVec.ofNat 64 (decVal ip))) else E.u64ToF64 (BitVec.ofNat 64 (decVal ip)))

/-- Fact about strconv: it does not read an integer below 2^64 and one from 2 * 10^19 on as the same float. -/
def FarApart (E : Env) : Prop := ∀ ip t ip' t', JInt false ip t → decVal ip < 2 ^ 64 → JInt false ip' t' → 2 * 10 ^ 19 ≤ decVal ip' → E.parseFloat t ≠ E.parseFloat t'

/-- Fact about strconv: with a precision the digits are rounded to it: `prec` digits after the dot for `f`, `prec + 1` digits in all for `e` and
`prec` (at least one) for `g`. -/
def Rounded (g : FDigits) (fmt : UInt8) (prec : Int) : Prop :=
  prec < 0 ∨
  if fmt = 0x65 ∨ fmt = 0x45 then (g.d.length : Int) ≤ prec + 1
  else if fmt = 0x66 then g.d ≠ [] → (g.d.length : Int) - g.dp ≤ prec
  else (g.d.length : Int) ≤ max prec 1

end Spec
