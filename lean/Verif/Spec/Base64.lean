import Verif.Model.Basic
/-!
RFC 4648 section 4 (base64 with padding), on bits.
-/
namespace Spec
open JV

/-- the low `n` bits of a number, most significant first -/
def bitsOf (n : Nat) (x : Nat) : List Bool := (List.range n).reverse.map x.testBit

/-- a byte string as a bit string -/
def octetBits (b : Bytes) : List Bool := b.flatMap fun c => bitsOf 8 c.toNat

/-- table 1 of RFC 4648: `A`-`Z` are 0-25, `a`-`z` are 26-51, `0`-`9` are 52-61, `+` is 62, `/` is 63 -/
def b64Char (d : Nat) : UInt8 :=
  if d < 26 then UInt8.ofNat (65 + d) else if d < 52 then UInt8.ofNat (97 + (d - 26)) else if d < 62 then UInt8.ofNat (48 + (d - 52))
  else if d = 62 then 43 else 47

/-- `t` is base64 for `b`: the bits of `b`, filled up by `tail` (fewer than six bits) to a multiple of six, are cut into groups of six; each
group is one character; `=` fills up the text to a multiple of four. -/
def Base64 (tail : List Bool) (b t : Bytes) : Prop :=
  ∃ (ds : List Nat) (pad : Nat), (∀ d ∈ ds, d < 64) ∧ octetBits b ++ tail = ds.flatMap (bitsOf 6) ∧ tail.length < 6 ∧
    t = ds.map b64Char ++ List.replicate pad 61 ∧ pad < 4 ∧ (ds.length + pad) % 4 = 0

/-- as an encoder must write it: the added bits are zero -/
def Base64Strict (b t : Bytes) : Prop := ∃ n, Base64 (List.replicate n false) b t

/-- without line breaks, which Go's decoder skips -/
def noBreaks (t : Bytes) : Bytes := t.filter fun c => !(c == 10 || c == 13)

end Spec
