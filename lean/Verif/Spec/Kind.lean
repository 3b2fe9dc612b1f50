import Verif.Spec.Json
import Verif.Model.Describe
/-!
The kinds of values, and what the questions about them answer.
-/
namespace Spec
open JV

/-- the kinds of JSON values (RFC 8259, section 3) and the value that stands for nothing -/
inductive Kind
  | nothing | string | number | object | array | boolean | null
deriving DecidableEq

/-- the first character of a JSON value tells its kind -/
inductive Starts : UInt8 → Kind → Prop
  | string : Starts 0x22 .string
  | digit (c : UInt8) : Digit c → Starts c .number
  | minus : Starts 0x2D .number
  | object : Starts 0x7B .object
  | array : Starts 0x5B .array
  | true : Starts 0x74 .boolean
  | false : Starts 0x66 .boolean
  | null : Starts 0x6E .null

/-- the name that ValueType prints -/
def Kind.name : Kind → Bytes
  | .nothing => [0x69, 0x6C, 0x6C, 0x65, 0x67, 0x61, 0x6C] -- illegal
  | .string => [0x73, 0x74, 0x72, 0x69, 0x6E, 0x67] -- string
  | .number => [0x6E, 0x75, 0x6D, 0x62, 0x65, 0x72] -- number
  | .object => [0x6F, 0x62, 0x6A, 0x65, 0x63, 0x74] -- object
  | .array => [0x61, 0x72, 0x72, 0x61, 0x79] -- array
  | .boolean => [0x62, 0x6F, 0x6F, 0x6C, 0x65, 0x61, 0x6E] -- boolean
  | .null => [0x6E, 0x75, 0x6C, 0x6C] -- null

/-- All questions about the kind of a value are answered, and the answers are those for a value of kind `k`. -/
structure Answers (v : V) (k : Kind) : Prop where
  object : isObject v = .ok (decide (k = .object))
  array : isArray v = .ok (decide (k = .array))
  string : isString v = .ok (decide (k = .string))
  number : isNumber v = .ok (decide (k = .number))
  boolean : isBoolean v = .ok (decide (k = .boolean))
  null : isNull v = .ok (decide (k = .null))
  name : ∃ t, valueType v = .ok t ∧ typeName t = .ok k.name
  /-- a number is a float or an integer -/
  floats : ∃ a b, isFloat v = .ok a ∧ isInteger v = .ok b ∧ (a || b) = decide (k = .number) ∧ (a && b) = false
  /-- a number is negative or "positive" -/
  signs : ∃ a b, isNegative v = .ok a ∧ isPositive v = .ok b ∧ (a || b) = decide (k = .number) ∧ (a && b) = false
  great : ∃ g, greaterThanInt64Max v = .ok g ∧ (g = true → k = .number ∧ isNegative v = .ok false)

end Spec
