import Verif.Spec.Lenient
import Verif.Model.Basic
/-!
Which error belongs to which faulty text. The text is read as far as it conforms to the accepted language (Spec/Lenient); the error tells what stands
there. `numTok`: the accepted number tokens. Only the error constants are taken from the model.
-/
namespace Spec
open JV (Err)

/-! ### string literals -/

/-- nothing that may stand in a string literal stands here -/
def Stuck (u : Bytes) : Prop := ∀ p d t, LStr p d → u = p ++ t → p = []
/-- a byte that cannot begin a character, or a character cut off by the end of the text -/
def BadUTF8 (u : Bytes) : Prop := ∃ c m, u = c :: m ∧ 0x80 ≤ c.toNat ∧ (leadLen c = 0 ∨ m.length + 1 < leadLen c)
/-- the escape of a surrogate followed by an escape of something else than a low surrogate (and not by the end of the text) -/
def BadPair (u : Bytes) : Prop := ∃ e1 e2 hi lo y t, u = e1 ++ e2 ++ y :: t ∧ UEsc e1 hi ∧ UEsc e2 lo ∧ 0xD800 ≤ hi ∧ hi < 0xE000 ∧ ¬ (0xDC00 ≤ lo ∧ lo < 0xE000)

/-- a faulty string literal, without its opening quote -/
def BadStr (s : Bytes) (e : Err) : Prop := ∃ p d u, s = p ++ u ∧ LStr p d ∧ Stuck u ∧ (∀ t, u ≠ 0x22 :: t) ∧
  ((BadUTF8 u ∨ BadPair u) ∧ e = .illegalString ∨ ¬ (BadUTF8 u ∨ BadPair u) ∧ e = .other)

/-! ### values -/

def NumStart (c : UInt8) : Prop := Digit c ∨ c = 0x2D
/-- the first byte of some value -/
def ValStart (c : UInt8) : Prop := NumStart c ∨ c = 0x22 ∨ c = 0x5B ∨ c = 0x7B ∨ c = 0x74 ∨ c = 0x66 ∨ c = 0x6E

mutual
/-- `VErr numTok s e`: a value should stand at the beginning of `s`, and `e` is the error found -/
inductive VErr (numTok : Bytes → Prop) : Bytes → Err → Prop
  | char (c : UInt8) (t : Bytes) : ¬ ValStart c → VErr numTok (c :: t) .rawBytesUnrecognized
  | tru (t : Bytes) : (∀ r, t ≠ [0x72, 0x75, 0x65] ++ r) → VErr numTok (0x74 :: t) .notValidBoolValue
  | fls (t : Bytes) : (∀ r, t ≠ [0x61, 0x6C, 0x73, 0x65] ++ r) → VErr numTok (0x66 :: t) .notValidBoolValue
  | null_short (t : Bytes) : t.length < 3 → VErr numTok (0x6E :: t) .notValidNullValue
  | null (t : Bytes) : 3 ≤ t.length → (∀ r, t ≠ [0x75, 0x6C, 0x6C] ++ r) → VErr numTok (0x6E :: t) .notValidBoolValue
  | num (c : UInt8) (t r : Bytes) : NumStart c → (∀ x ∈ t, NumChar x) → NumEnd r → ¬ numTok (c :: t) → VErr numTok (c :: t ++ r) .other
  | str (t : Bytes) (e : Err) : BadStr t e → VErr numTok (0x22 :: t) e
  | arr (t : Bytes) (e : Err) : AErr numTok t e → VErr numTok (0x5B :: t) e
  | obj (t : Bytes) (e : Err) : OErr numTok t e → VErr numTok (0x7B :: t) e
/-- the rest of an array after `[` or after some elements -/
inductive AErr (numTok : Bytes → Prop) : Bytes → Err → Prop
  | eof (s : Bytes) : Sep s → AErr numTok s .notArrayValue
  | elem (s u : Bytes) (e : Err) : Sep s → VErr numTok u e → (∀ c t, u = c :: t → ¬ Sep [c] ∧ c ≠ 0x5D) → AErr numTok (s ++ u) e
  | next (s t ts : Bytes) (v : J) (e : Err) : Sep s → LVal numTok t v → Follow v ts → AErr numTok ts e → AErr numTok (s ++ t ++ ts) e
/-- the rest of an object after `{` or after some members -/
inductive OErr (numTok : Bytes → Prop) : Bytes → Err → Prop
  | eof (s : Bytes) : Sep s → OErr numTok s .notObjectValue
  /-- a value or a colon where a key should be -/
  | no_key (s : Bytes) (c : UInt8) (t : Bytes) : Sep s → (c = 0x3A ∨ ValStart c ∧ c ≠ 0x22) → OErr numTok (s ++ c :: t) .notObjectValue
  | key_char (s : Bytes) (c : UInt8) (t : Bytes) : Sep s → ¬ Sep [c] → c ≠ 0x7D → c ≠ 0x3A → ¬ ValStart c → OErr numTok (s ++ c :: t) .rawBytesUnrecognized
  | key (s t : Bytes) (e : Err) : Sep s → BadStr t e → OErr numTok (s ++ 0x22 :: t) e
  /-- the end, a comma, a closing brace or a value where a colon should be -/
  | no_colon (s k d b : Bytes) (u : Bytes) : Sep s → LStr k d → Blank b → (∀ c t, u = c :: t → c = 0x2C ∨ c = 0x7D ∨ ValStart c) →
      OErr numTok (s ++ 0x22 :: k ++ 0x22 :: b ++ u) .notObjectValue
  | colon_char (s k d b : Bytes) (c : UInt8) (t : Bytes) : Sep s → LStr k d → Blank b → ¬ Sep [c] → c ≠ 0x7D → c ≠ 0x3A → ¬ ValStart c →
      OErr numTok (s ++ 0x22 :: k ++ 0x22 :: b ++ c :: t) .rawBytesUnrecognized
  /-- the end, a comma, a closing brace or another colon where the value should be -/
  | no_value (s k d b1 b2 : Bytes) (u : Bytes) : Sep s → LStr k d → Blank b1 → Blank b2 → (∀ c t, u = c :: t → c = 0x2C ∨ c = 0x7D ∨ c = 0x3A) →
      OErr numTok (s ++ 0x22 :: k ++ 0x22 :: b1 ++ 0x3A :: b2 ++ u) .notObjectValue
  | value (s k d b1 b2 : Bytes) (u : Bytes) (e : Err) : Sep s → LStr k d → Blank b1 → Blank b2 → VErr numTok u e →
      (∀ c t, u = c :: t → ¬ Sep [c] ∧ c ≠ 0x7D ∧ c ≠ 0x3A) → OErr numTok (s ++ 0x22 :: k ++ 0x22 :: b1 ++ 0x3A :: b2 ++ u) e
  | next (s k b1 b2 t ts d : Bytes) (v : J) (e : Err) : Sep s → LStr k d → Blank b1 → Blank b2 → LVal numTok t v → Follow v ts → OErr numTok ts e →
      OErr numTok (s ++ 0x22 :: k ++ 0x22 :: b1 ++ 0x3A :: b2 ++ t ++ ts) e
end

/-- the error for a faulty text -/
inductive TextErr (numTok : Bytes → Prop) : Bytes → Err → Prop
  | empty : TextErr numTok [] .nilParameter
  | blank (s : Bytes) : Blank s → s ≠ [] → TextErr numTok s .rawBytesUnrecognized
  | value (b u : Bytes) (e : Err) : Blank b → (∀ c t, u = c :: t → ¬ Blank [c]) → VErr numTok u e → TextErr numTok (b ++ u) e
  | trailing (b t r : Bytes) (j : J) : Blank b → LVal numTok t j → Follow j r → ¬ Blank r → TextErr numTok (b ++ t ++ r) .rawBytesUnrecognized

end Spec
