import Verif.Spec.History
import Verif.Spec.Marshal
/-!
What comparing means. The value of a number text is a rational number; `val` says which.
-/
namespace Spec
open JV

/-- The same content: same type, strings, booleans; numbers of the same value; arrays element by element; objects with the same keys, member
by member, whatever their order and history. A value that does not exist (nil or NotExist) is the same as nothing. -/
inductive EqualTo (val : Bytes → Rat) : V → V → Prop
  | null : EqualTo val .null .null
  | bool (b) : EqualTo val (.bool b) (.bool b)
  | str (s) : EqualTo val (.str s) (.str s)
  | num (s t n m) : val s = val t → EqualTo val (.num s n) (.num t m)
  | arr (xs ys : List V) : xs.length = ys.length → (∀ (i : Nat) x y, xs[i]? = some x → ys[i]? = some y → EqualTo val x y) → EqualTo val (.arr xs) (.arr ys)
  | obj (n kvs low n' kvs' low') : (∀ k, (members (.obj n kvs low) k).isSome = (members (.obj n' kvs' low') k).isSome) →
      (∀ k c c', members (.obj n kvs low) k = some c → members (.obj n' kvs' low') k = some c' → EqualTo val c c') →
      EqualTo val (.obj n kvs low) (.obj n' kvs' low')

def IsNum : V → Prop
  | .num _ _ => True
  | _ => False

/-- `sub` is part of `v`: a run of equal elements of an array; members of an object, each of them part of the member with the same key;
anything else must be equal -/
inductive Within (val : Bytes → Rat) : V → V → Prop
  | scalar (v w) : IsScalar v → EqualTo val v w → Within val v w
  | arr (pre ys ys' post : List V) : EqualTo val (.arr ys) (.arr ys') → Within val (.arr ys) (.arr (pre ++ ys' ++ post))
  | obj (n kvs low n' kvs' low') (f : Bytes → V) : (∀ k c, members (.obj n kvs low) k = some c → members (.obj n' kvs' low') k = some (f k)) →
      (∀ k c, members (.obj n kvs low) k = some c → Within val c (f k)) → Within val (.obj n kvs low) (.obj n' kvs' low')

/-- A node that Marshal writes and Unmarshal reads back as it was: strings and keys are valid UTF-8, numbers have a text that Unmarshal takes,
nothing is nil or NotExist. -/
def Portable (E : Env) : V → Prop
  | .nilp => False
  | .notExist => False
  | .str s => ValidUTF8 s
  | .num src _ => Reads E src
  | .obj _ kvs _ => ∀ e ∈ kvs, ValidUTF8 e.key
  | _ => True

/-! ### the number a text stands for -/

/-- An optional sign, digits, optionally a dot and digits, optionally an exponent `x`: what `strconv.ParseFloat` would read; in particular
all JSON numbers. `q` is the value. -/
inductive TextValue : Bytes → Rat → Prop
  | mk (neg : Bool) (ip fp ds ep : Bytes) (x : Int) : Digits ip → Digits ds → (fp = [] ∧ ds = [] ∨ fp = 0x2E :: ds) → ip ++ ds ≠ [] →
      (ep = [] ∧ x = 0 ∨ ∃ e sg d, ep = e :: sg ++ d ∧ (e = 0x65 ∨ e = 0x45) ∧ Digits d ∧ d ≠ [] ∧
        ((sg = [] ∨ sg = [0x2B]) ∧ x = decVal d ∨ sg = [0x2D] ∧ x = - (decVal d : Int))) →
      TextValue (sign neg ++ ip ++ fp ++ ep)
        ((if neg then -1 else 1) * ((decVal ip : Rat) + (decVal ds : Rat) / (10 : Rat) ^ ds.length) * (10 : Rat) ^ x)

/-- What a decimal number text counts as: its value if the exponent fits 32 bits, as it is written and after the dot has been moved behind the
last digit; otherwise 0. -/
inductive CountsAs : Bytes → Rat → Prop
  | value (neg : Bool) (ip fp ds ep : Bytes) (x : Int) : Digits ip → Digits ds → (fp = [] ∧ ds = [] ∨ fp = 0x2E :: ds) → ip ++ ds ≠ [] →
      (ep = [] ∧ x = 0 ∨ ∃ e sg d, ep = e :: sg ++ d ∧ (e = 0x65 ∨ e = 0x45) ∧ Digits d ∧ d ≠ [] ∧
        ((sg = [] ∨ sg = [0x2B]) ∧ x = decVal d ∨ sg = [0x2D] ∧ x = - (decVal d : Int))) →
      -2 ^ 31 ≤ x - ds.length → x < 2 ^ 31 →
      CountsAs (sign neg ++ ip ++ fp ++ ep)
        ((if neg then -1 else 1) * ((decVal ip : Rat) + (decVal ds : Rat) / (10 : Rat) ^ ds.length) * (10 : Rat) ^ x)
  | zero (neg : Bool) (ip fp ds ep : Bytes) (x : Int) : Digits ip → Digits ds → (fp = [] ∧ ds = [] ∨ fp = 0x2E :: ds) → ip ++ ds ≠ [] →
      (ep = [] ∧ x = 0 ∨ ∃ e sg d, ep = e :: sg ++ d ∧ (e = 0x65 ∨ e = 0x45) ∧ Digits d ∧ d ≠ [] ∧
        ((sg = [] ∨ sg = [0x2B]) ∧ x = decVal d ∨ sg = [0x2D] ∧ x = - (decVal d : Int))) →
      (x - ds.length < -2 ^ 31 ∨ 2 ^ 31 ≤ x) → CountsAs (sign neg ++ ip ++ fp ++ ep) 0

/-- the text is shorter than 2^31 bytes, and so far from it that moving the dot cannot bring the exponent out of 32 bits -/
def SmallExp (t : Bytes) : Prop :=
  t.length < 2 ^ 31 ∧ ∀ body e sg d, t = body ++ e :: sg ++ d → (e = 0x65 ∨ e = 0x45) → (sg = [] ∨ sg = [0x2B] ∨ sg = [0x2D]) → Digits d →
    decVal d + t.length < 2 ^ 31

end Spec
