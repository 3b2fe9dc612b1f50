import Verif.Spec.Export
/-!
What package encoding/json does with a type that has MarshalJSON and UnmarshalJSON, written after its published source (encode.go
`marshalerEncoder`, indent.go `appendCompact`, scanner.go), and how deep it lets texts nest. This file does not refer to the functions of the model.
-/
namespace Spec
open JV

/-! ### the check -/

/-- What is assumed about the syntax check: exactly the texts of the grammar in Spec/StdGrammar pass that do not nest too deep. -/
def GoodCheck (valid : Bytes → Bool) : Prop := ∀ s, valid s = true ↔ ∃ j, GText s j ∧ j.depth ≤ maxNesting

/-! ### what is done to the text -/

def blank (c : UInt8) : Bool := c == 0x20 || c == 0x09 || c == 0x0A || c == 0x0D

/-- the text begins with the UTF-8 form of U+2028 or U+2029 -/
def lineSep (s : Bytes) : Bool := s.take 3 == [0xE2, 0x80, 0xA8] || s.take 3 == [0xE2, 0x80, 0xA9]

/-- `\u00XX` or `\u202X` with lower-case digits for a byte `b` -/
def lowEsc (hi : Bytes) (b : UInt8) : Bytes :=
  let dig (n : Nat) : UInt8 := if n < 10 then UInt8.ofNat (0x30 + n) else UInt8.ofNat (0x57 + n)
  [0x5C, 0x75] ++ hi ++ [dig (b.toNat / 16), dig (b.toNat % 16)]

/-- White space outside string literals is dropped; `<`, `>`, `&`, U+2028 and U+2029 are escaped. `q`: inside a string literal; `e`: after a
backslash; `skip`: this many bytes have been dealt with already. -/
def compact (q e : Bool) : Nat → Bytes → Bytes
  | _, [] => []
  | k + 1, _ :: t => compact q e k t
  | 0, c :: t =>
    if q then
      if e then c :: compact true false 0 t
      else if c = 0x5C then c :: compact true true 0 t
      else if c = 0x22 then c :: compact false false 0 t
      else if c = 0x3C ∨ c = 0x3E ∨ c = 0x26 then lowEsc [0x30, 0x30] c ++ compact true false 0 t
      else if lineSep (c :: t) then lowEsc [0x32, 0x30] (t.getD 1 0 - 0x80) ++ compact true false 2 t
      else c :: compact true false 0 t
    else if blank c then compact false false 0 t
    else if c = 0x22 then c :: compact true false 0 t
    else c :: compact false false 0 t

/-- A node whose text is JSON under every option: strings and keys without U+000B, number texts that are JSON numbers, nothing nil or NotExist. -/
def Writable : V → Prop
  | .nilp => False
  | .notExist => False
  | .str s => 0xB ∉ s
  | .num src _ => JNum src
  | .obj _ kvs _ => ∀ e ∈ kvs, 0xB ∉ e.key
  | _ => True

/-- what is written for a number satisfies `P`: its text, or the number that the options put in its place -/
def NumShown (E : Env) (o : Opt) (P : Bytes → Prop) : V → Prop
  | .num src n => (special src n = none → P src) ∧ ∀ s t, special src n = some s → Replace E o s (.inl (.num t)) → P t
  | _ => True

-- both kinds of escapes, and a blank inside a string
example : compact false false 0 [0x20, 0x5B, 0x22, 0x3C, 0x20, 0x5C, 0x22, 0xE2, 0x80, 0xA9, 0x22, 0x0A, 0x5D] =
    [0x5B, 0x22, 0x5C, 0x75, 0x30, 0x30, 0x33, 0x63, 0x20, 0x5C, 0x22, 0x5C, 0x75, 0x32, 0x30, 0x32, 0x39, 0x22, 0x5D] := by decide +kernel

end Spec
