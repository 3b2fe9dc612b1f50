import Verif.Spec.Lenient
/-!
Which bytes of a text are inside string literals, and what decoding them in place makes of the text. This file does not refer to the model.
-/
namespace Spec

/-- One flag per byte of the text: is it strictly inside a string literal? `ins`: the scan is inside a literal, `skip`: so many
bytes still belong to the current character (the character after a backslash, the continuation bytes of a UTF-8 sequence). -/
def strMask : Bytes → (ins : Bool) → (skip : Nat) → List Bool
  | [], _, _ => []
  | c :: s, false, _ => false :: strMask s (c == 0x22) 0
  | _ :: s, true, k+1 => true :: strMask s true k
  | c :: s, true, 0 =>
    if c = 0x22 then false :: strMask s false 0
    else if c = 0x5C then true :: strMask s true 1
    else true :: strMask s true (leadLen c - 1)

/-- `s'` is the text `s` with every string literal overwritten: its decoded text comes first, what remains of the literal is as it was. -/
inductive Decoded : Bytes → Bytes → Prop
  | nil : Decoded [] []
  | plain (c : UInt8) (s s' : Bytes) : c ≠ 0x22 → Decoded s s' → Decoded (c :: s) (c :: s')
  | lit (body d s s' : Bytes) : LStr body d → Decoded s s' →
      Decoded (0x22 :: body ++ 0x22 :: s) (0x22 :: (d ++ body.drop d.length) ++ 0x22 :: s')

/-- `s'` is the text `s` with the first so many literals overwritten, the last of them perhaps not to its end. -/
def PartlyDecoded (s s' : Bytes) : Prop :=
  ∃ a a' r r', s = a ++ r ∧ s' = a' ++ r' ∧ Decoded a a' ∧
    (r' = r ∨ ∃ body d rest, LStr body d ∧ r = 0x22 :: body ++ rest ∧ r' = 0x22 :: (d ++ body.drop d.length) ++ rest)

end Spec
