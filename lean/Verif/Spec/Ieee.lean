import Verif.Spec.Denote
import Verif.Spec.FloatFmt
/-!
Binary floating point numbers (IEEE 754) and what Go's functions on them are documented to do.
-/
namespace Spec
open JV

/-- a binary format: bits of the fraction, and the bias of the exponent -/
structure Fmt where
  p : Nat
  bias : Nat

/-- float64 -/
def double : Fmt := ⟨52, 1023⟩
/-- float32 -/
def single : Fmt := ⟨23, 127⟩

/-- the bits of infinity -/
def Fmt.inf (F : Fmt) : Nat := (2 * F.bias + 1) * 2 ^ F.p

/-- The absolute value that bits (without the sign) stand for, in units of the smallest number above zero. Infinity counts as the number that
would follow the largest one. -/
def Fmt.units (F : Fmt) (b : Nat) : Nat :=
  if b < 2 ^ F.p then b else (2 ^ F.p + b % 2 ^ F.p) * 2 ^ (b / 2 ^ F.p - 1)

/-- the same as a number; the smallest one above zero is `2 ^ (1 - bias - p)` -/
def Fmt.val (F : Fmt) (b : Nat) : Rat := (F.units b : Rat) / ((2 ^ (F.bias + F.p - 1) : Nat) : Rat)

/-- `b` are the bits of the number nearest to `q`, of two the one whose last bit is 0 -/
structure Nearest (F : Fmt) (q : Rat) (b : Nat) : Prop where
  le : b ≤ F.inf
  near : ∀ c, c ≤ F.inf → (F.val b - q).abs ≤ (F.val c - q).abs
  even : ∀ c, c ≤ F.inf → c ≠ b → (F.val b - q).abs = (F.val c - q).abs → b % 2 = 0

/-- the float64 of a sign and bits -/
def pack (neg : Bool) (b : Nat) : BitVec 64 := BitVec.ofNat 64 ((if neg then 2 ^ 63 else 0) + b)
/-- the float32 of a sign and bits -/
def pack32 (neg : Bool) (b : Nat) : BitVec 32 := BitVec.ofNat 32 ((if neg then 2 ^ 31 else 0) + b)

/-- the number that a finite float64 stands for -/
def floatValue (f : BitVec 64) : Rat := (if f.msb then -1 else 1) * double.val (magnitude f)

/-- A written exponent is below 100000. strconv reads at most five digits of it. -/
def ShortExp (t : Bytes) : Prop :=
  ∀ body e sg d, t = body ++ e :: sg ++ d → (e = 0x65 ∨ e = 0x45) → (sg = [] ∨ sg = [0x2B] ∨ sg = [0x2D]) → Digits d → decVal d < 10 ^ 5

/-- a number without what comes after its dot -/
def trunc (q : Rat) : Int := if 0 ≤ q then q.floor else - (-q).floor

/-- Facts about Go and its strconv: ParseFloat and the conversions between integers and floats round to the nearest float (ParseFloat fails if
that is infinity); conversions of floats to integers cut the fraction off if the result has the type. -/
structure Ieee (E : Env) : Prop where
  syntax' : FloatSyntax E
  parse : ∀ t q, TextValue t q → ShortExp t → ∃ b, Nearest double q.abs b ∧
    E.parseFloat t = if b = double.inf then none else some (pack (t.head? == some 0x2D) b)
  u64 : ∀ u, ∃ b, Nearest double (u.toNat : Rat) b ∧ E.u64ToF64 u = pack false b
  i64 : ∀ i, ∃ b, Nearest double (i.toInt.natAbs : Rat) b ∧ E.i64ToF64 i = pack (decide (i.toInt < 0)) b
  toI64 : ∀ f, magnitude f < double.inf → -2 ^ 63 ≤ trunc (floatValue f) → trunc (floatValue f) < 2 ^ 63 → (E.f64ToI64 f).toInt = trunc (floatValue f)
  toU64 : ∀ f, magnitude f < double.inf → 0 ≤ trunc (floatValue f) → trunc (floatValue f) < 2 ^ 64 → ((E.f64ToU64 f).toNat : Int) = trunc (floatValue f)
  toF32 : ∀ f b, magnitude f < double.inf → Nearest single (floatValue f).abs b → b ≠ single.inf → E.f64ToF32 f = pack32 f.msb b

/-- Facts about strconv: asked for the fewest digits it gives digits that ParseFloat reads as the number with the bits `b`, no fewer digits do, and
among as many digits these are nearest to the number. -/
structure Fewest (F : Fmt) (b : Nat) (g : FDigits) : Prop where
  digits : Digits g.d
  lead : ∀ u, g.d ≠ 0x30 :: u
  zero : b = 0 → g = ⟨[], 0⟩
  reads : Nearest F (digitsValue false g) b
  fewest : ∀ g' : FDigits, Digits g'.d → Nearest F (digitsValue false g') b → g.d.length ≤ g'.d.length
  close : ∀ g' : FDigits, Digits g'.d → g'.d.length = g.d.length → Nearest F (digitsValue false g') b →
    (digitsValue false g - F.val b).abs ≤ (digitsValue false g' - F.val b).abs

/-- Facts about strconv: the digits of FormatFloat with precision -1 for bitSize 64 (`w = false`) and 32 (`f` is then the float64 of a float32),
whatever the format. -/
structure GoDigits (O : DigitFn) : Prop where
  same : ∀ w f fmt, O w f fmt (-1) = shortest O w f
  double : ∀ f, magnitude f < double.inf → Fewest double (magnitude f) (shortest O false f)
  single : ∀ f b, magnitude f < Spec.double.inf → b < single.inf → Spec.double.val (magnitude f) = single.val b → Fewest single b (shortest O true f)

end Spec
