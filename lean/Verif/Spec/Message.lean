import Verif.Spec.Errors
import Verif.Model.Message
/-!
What the messages of Unmarshal say about the text. From the model only the names of the messages are taken.
-/
namespace Spec
open JV (Msg NumMsg Err)

/-- the literals, with the error for one that the end of the text cuts off -/
def Literal (lit : Bytes) (e : Err) : Prop :=
  lit = [0x74, 0x72, 0x75, 0x65] ∧ e = .notValidBoolValue ∨ lit = [0x66, 0x61, 0x6C, 0x73, 0x65] ∧ e = .notValidBoolValue ∨
  lit = [0x6E, 0x75, 0x6C, 0x6C] ∧ e = .notValidNullValue

/-- a surrogate -/
def Surr (r : Nat) : Prop := 0xD800 ≤ r ∧ r < 0xE000

/-- the byte that a message about a byte inside a number is about -/
def NumFaultByte : NumMsg → UInt8 → Prop
  | .zero, c => c = 0x30
  | .exponent, c => c = 0x65 ∨ c = 0x45
  | .plus, c => c = 0x2B
  | .minus, c => c = 0x2D
  | .dot, c => c = 0x2E
  | _, _ => False

/-- what a message about a whole number says about its text -/
def NumSays : NumMsg → Bytes → Prop
  | .afterDot, tok => 0x2E ∈ tok
  | .leadingZero, tok => ∃ t, tok = 0x30 :: t ∧ Digits t
  | .format, tok => tok = [0x2D]
  | .float text, tok => tok = text ∧ ∃ c ∈ tok, ¬ Digit c
  | .tooLarge, tok => Digits tok ∧ 2 ^ 64 ≤ decVal tok
  /- or so long because of a zero in front -/
  | .absTooLarge, tok => ∃ t, tok = 0x2D :: t ∧ Digits t ∧ (2 ^ 63 < decVal t ∨ 20 ≤ t.length ∧ ∃ u, t = 0x30 :: u)
  | _, _ => False

/-- `MsgHolds numTok i b m`: what the message `m` says is so when `b` stands at position `i` of the text (and nothing else is known of the text
before) -/
def MsgHolds (numTok : Bytes → Prop) (i : Nat) (b : Bytes) : Msg → Prop
  -- these three are about the whole text: see `TextSays`
  | .nilParameter | .noSymbol | .trailing _ => False
  -- the end of the text comes too early: see `viable`
  | .noBracket | .noBrace | .noQuote => True
  /- the position is that of the byte shown, which begins no value -/
  | .badChar c p => p = i ∧ ¬ Blank [c] ∧ ¬ ValStart c ∧ ∃ t, b = c :: t
  /- the position is that of a value or colon in the place of a key -/
  | .noKey p => p = i ∧ ∃ c t, b = c :: t ∧ (c = 0x3A ∨ ValStart c ∧ c ≠ 0x22)
  /- the position is that of a value in the place of a colon -/
  | .noColon p => p = i ∧ ∃ c t, b = c :: t ∧ ValStart c ∧ c ≠ 0x22
  /- the position is that of the inside of the key, which is shown decoded; no value follows -/
  | .noValue k p => p = i + 1 ∧ ∃ body b1 c t, LStr body k ∧ Blank b1 ∧
      (b = 0x22 :: body ++ 0x22 :: b1 ++ c :: t ∧ (c = 0x2C ∨ c = 0x7D ∨ c = 0x22) ∨
       ∃ b2, Blank b2 ∧ b = 0x22 :: body ++ 0x22 :: b1 ++ 0x3A :: b2 ++ c :: t ∧ (c = 0x2C ∨ c = 0x7D))
  /- the position is that of the inside of the key, not that of a colon -/
  | .dupColon p => p = i + 1 ∧ ∃ body k b1 b2 t, LStr body k ∧ Blank b1 ∧ Blank b2 ∧ b = 0x22 :: body ++ 0x22 :: b1 ++ 0x3A :: b2 ++ 0x3A :: t
  /- the text ends within a character of `got` bytes; `least` bytes are left of it -/
  | .shortRune least got p => p = i ∧ ∃ c t, b = c :: t ∧ leadLen c = got ∧ b.length = least ∧ least < got
  | .badUTF8 p => p = i ∧ ∃ c t, b = c :: t ∧ 0x80 ≤ c.toNat ∧ leadLen c = 0
  /- the text ends within an escape, or right after `\uXXXX` -/
  | .escEnd => b = [0x5C] ∨ ∃ u, b = 0x5C :: 0x75 :: u ∧ u.length < 5
  | .badEscape c => ∃ t, b = 0x5C :: c :: t ∧ c ≠ 0x75 ∧ c ≠ 0x27 ∧ ∀ x, ¬ EscChar c x
  /- the last of the four characters after `\u` that is not hexadecimal -/
  | .badHex c => (∀ x, ¬ Hex c x) ∧ ∃ h1 h2 t, b = 0x5C :: 0x75 :: (h1 ++ c :: h2) ++ t ∧ h1.length + h2.length = 3 ∧ ∀ y ∈ h2, ∃ x, Hex y x
  | .utf16Short p => p = i ∧ ∃ e r t, b = e ++ t ∧ UEsc e r ∧ Surr r ∧ t.length < 7
  /- the position is that after the first escape -/
  | .utf16Escape p => p = i + 6 ∧ ∃ e r x y t, b = e ++ x :: y :: t ∧ UEsc e r ∧ Surr r ∧ ¬ (x = 0x5C ∧ y = 0x75)
  /- the number shown is that of the first escape, the position that of the digits of the second -/
  | .utf16Second r p => p = i + 8 ∧ ∃ e1 e2 lo t, b = e1 ++ e2 ++ t ∧ UEsc e1 r ∧ UEsc e2 lo ∧ Surr r ∧ ¬ (0xDC00 ≤ lo ∧ lo < 0xE000)
  | .litShort e p => p = i ∧ ∃ lit, Literal lit e ∧ b ≠ [] ∧ b.head? = lit.head? ∧ b.length < lit.length
  | .notTrue p => p = i ∧ ∃ t, b = 0x74 :: t ∧ ∀ r, b ≠ [0x74, 0x72, 0x75, 0x65] ++ r
  | .notFalse p => p = i ∧ ∃ t, b = 0x66 :: t ∧ ∀ r, b ≠ [0x66, 0x61, 0x6C, 0x73, 0x65] ++ r
  | .notNull p => p = i ∧ ∃ t, b = 0x6E :: t ∧ ∀ r, b ≠ [0x6E, 0x75, 0x6C, 0x6C] ++ r
  /- either a byte within a number, or the beginning of a number that is refused as a whole -/
  | .num k p => ∃ c tok r, b = c :: tok ++ r ∧ NumStart c ∧ (∀ x ∈ tok, NumChar x) ∧ NumEnd r ∧ ¬ numTok (c :: tok) ∧
      (p = i ∧ NumSays k (c :: tok) ∨ ∃ x, p < i + (c :: tok).length ∧ i ≤ p ∧ (c :: tok)[p - i]? = some x ∧ NumFaultByte k x)

/-- somewhere in the text, which begins at position `p` -/
def Says (numTok : Bytes → Prop) (p : Nat) (s : Bytes) (m : Msg) : Prop := ∃ a b, s = a ++ b ∧ MsgHolds numTok (p + a.length) b m

/-- what a message says about a whole text -/
def TextSays (numTok : Bytes → Prop) (s : Bytes) : Msg → Prop
  | .nilParameter => s = []
  | .noSymbol => s ≠ [] ∧ Blank s
  /- a byte that is not blank; `viable` says what stands before it -/
  | .trailing p => ∃ a c t, s = a ++ c :: t ∧ p = a.length ∧ ¬ Blank [c]
  | m => Says numTok 0 s m

/-- the messages that point at the byte on which parsing gave up -/
def fault : Msg → Option Nat
  | .badChar _ p | .trailing p | .noKey p | .noColon p | .badUTF8 p => some p
  | .num .zero p | .num .exponent p | .num .plus p | .num .minus p | .num .dot p => some p
  | _ => none

/-- the messages for which the text up to some point might have gone on to be a good one: that point, `n` being the length of the text -/
def viable (n : Nat) : Msg → Option Nat
  | .badChar _ p | .trailing p | .noKey p | .noColon p | .badUTF8 p => some p
  | .nilParameter | .noSymbol | .noBracket | .noBrace | .noQuote => some n
  | _ => none

end Spec
