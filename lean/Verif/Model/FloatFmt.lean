import Verif.Model.Import
/-!
NewFloat64, NewFloat32, NewFloat64f and NewFloat32f with the text that strconv.FormatFloat gives. strconv is not part of the repository; the
layout of the digits follows its published source (ftoa.go, Go 1.21), the digits themselves are a parameter.
-/
namespace JV

/-- strconv `decimalSlice`: the digits (ASCII, no leading zero, none for 0) of a number `0.d₀d₁… × 10^dp` -/
structure FDigits where
  d : Bytes
  dp : Int
deriving DecidableEq, Repr

/-- the digits strconv finds for a finite float (`w`: bitSize is 32) in a format and with a precision; a negative precision asks for the fewest
digits that identify the float -/
abbrev DigitFn := (w : Bool) → (f : BitVec 64) → (fmt : UInt8) → (prec : Int) → FDigits

/-- an ASCII digit -/
def chDigit (n : Nat) : UInt8 := UInt8.ofNat (n % 10 + 0x30)

/-- strconv ftoa.go `%e`: the exponent with at least two digits -/
def fmtExp (x : Int) : Bytes :=
  let n := x.natAbs
  (if x < 0 then 0x2D else 0x2B) ::
    (if n < 10 then [0x30, chDigit n] else if n < 100 then [chDigit (n / 10), chDigit n] else [chDigit (n / 100), chDigit (n / 10), chDigit n])

/-- strconv ftoa.go `fmtE` -/
def fmtE (neg : Bool) (g : FDigits) (prec : Int) (fmt : UInt8) : Bytes :=
  (if neg then [0x2D] else []) ++ [g.d.headD 0x30] ++
  (if prec > 0 then 0x2E :: (g.d.drop 1).take prec.toNat ++ List.replicate (prec.toNat - ((g.d.drop 1).take prec.toNat).length) 0x30 else []) ++
  fmt :: fmtExp (if g.d = [] then 0 else g.dp - 1)

/-- strconv ftoa.go `fmtF`: digit `i` after the dot -/
def fracDigit (g : FDigits) (i : Nat) : UInt8 :=
  if 0 ≤ g.dp + i then (g.d[(g.dp + i).toNat]?).getD 0x30 else 0x30

/-- strconv ftoa.go `fmtF` -/
def fmtF (neg : Bool) (g : FDigits) (prec : Int) : Bytes :=
  (if neg then [0x2D] else []) ++
  (if g.dp > 0 then g.d.take g.dp.toNat ++ List.replicate (g.dp.toNat - (g.d.take g.dp.toNat).length) 0x30 else [0x30]) ++
  (if prec > 0 then 0x2E :: (List.range prec.toNat).map (fracDigit g) else [])

/-- strconv ftoa.go `formatDigits` for the formats `e`, `E`, `f`, `g`, `G` -/
def formatDigits (shortest neg : Bool) (g : FDigits) (prec : Int) (fmt : UInt8) : Bytes :=
  if fmt = 0x65 ∨ fmt = 0x45 then fmtE neg g prec fmt
  else if fmt = 0x66 then fmtF neg g prec
  else
    let nd : Int := g.d.length
    let eprec := if shortest then 6 else if prec > nd ∧ nd ≥ g.dp then nd else prec
    let x := g.dp - 1
    if x < -4 ∨ x ≥ eprec then fmtE neg g ((if prec > nd then nd else prec) - 1) (fmt - 2)
    else fmtF neg g (max ((if prec > g.dp then nd else prec) - g.dp) 0)

/-- strconv ftoa.go `genericFtoa`: the precision handed on, for the formats `e`, `E`, `f`, `g`, `G` -/
def precFor (g : FDigits) (fmt : UInt8) (prec : Int) : Int :=
  let nd : Int := g.d.length
  if prec < 0 then
    if fmt = 0x65 ∨ fmt = 0x45 then max (nd - 1) 0
    else if fmt = 0x66 then max (nd - g.dp) 0
    else nd
  else if (fmt = 0x67 ∨ fmt = 0x47) ∧ prec = 0 then 1
  else prec

/-- `strconv.FormatFloat(f, fmt, prec, bitSize)` for a finite float and the formats `e`, `E`, `f`, `g`, `G` -/
def formatFloat (O : DigitFn) (w : Bool) (f : BitVec 64) (fmt : UInt8) (prec : Int) : Bytes :=
  let g := O w f fmt prec
  formatDigits (decide (prec < 0)) f.msb g (precFor g fmt prec) fmt

/-- `math.Abs` -/
def fabs (f : BitVec 64) : BitVec 64 := f &&& 0x7FFFFFFFFFFFFFFF#64

/-- new.go:178-181, 205-208 `abs < 1e-6 || abs >= 1e21` on the bits; for floats that are not negative and not NaN the order of the bit patterns is
the order of the numbers. 1e-6 is 0x3EB0C6F7A0B5ED8D, 1e21 is 0x444B1AE4D6E2EF50. -/
def usesE (f : BitVec 64) : Bool :=
  decide ((fabs f).toNat < 0x3EB0C6F7A0B5ED8D) || decide ((fabs f).toNat ≥ 0x444B1AE4D6E2EF50)

/-- new.go:176-185 `NewFloat64`, 202-211 `NewFloat32`: the text -/
def newFloatText (O : DigitFn) : FloatText := fun w f => formatFloat O w f (if usesE f then 0x65 else 0x66) (-1)

/-- new.go:266-273 `validateFloat64Format`, 192-194: other formats are mapped to `g` -/
def validFormat (fmt : UInt8) : UInt8 :=
  if fmt = 0x66 ∨ fmt = 0x45 ∨ fmt = 0x65 ∨ fmt = 0x47 ∨ fmt = 0x67 then fmt else 0x67

/-- new.go:191-196 `NewFloat64f`, 218-223 `NewFloat32f` (which also asks for 64 bits; `f` is then `float64` of the argument) -/
def newFloatF (E : Env) (O : DigitFn) (f : BitVec 64) (fmt : UInt8) (prec : Int) : V :=
  newFloat64f E (formatFloat O false f (validFormat fmt) prec) f

end JV
