/-!
RFC 8259 JSON texts and the documents they denote. This file does not refer to the model.
-/
namespace Spec

abbrev Bytes := List UInt8

mutual
/-- A JSON document. Numbers are kept as their text, object members in textual order with repetitions. -/
inductive J where
  | null
  | bool (b : Bool)
  | num (text : Bytes)
  | str (s : Bytes)
  | arr (xs : List J)
  | obj (ms : List Mem)
/-- an object member -/
inductive Mem where
  | mk (key : Bytes) (v : J)
end

def Mem.key : Mem → Bytes | mk k _ => k
def Mem.v : Mem → J | mk _ v => v

/-- UTF-8 encoding of a code point (RFC 3629) -/
def utf8 (r : Nat) : Bytes :=
  if r < 0x80 then [UInt8.ofNat r]
  else if r < 0x800 then [UInt8.ofNat (0xC0 + r / 64), UInt8.ofNat (0x80 + r % 64)]
  else if r < 0x10000 then
    [UInt8.ofNat (0xE0 + r / 4096), UInt8.ofNat (0x80 + r / 64 % 64), UInt8.ofNat (0x80 + r % 64)]
  else
    [UInt8.ofNat (0xF0 + r / 262144), UInt8.ofNat (0x80 + r / 4096 % 64), UInt8.ofNat (0x80 + r / 64 % 64),
     UInt8.ofNat (0x80 + r % 64)]

/-- Unicode scalar value -/
def Scalar (r : Nat) : Prop := r < 0xD800 ∨ (0xE000 ≤ r ∧ r < 0x110000)

/-- `c` is a hexadecimal digit of value `n` -/
def Hex (c : UInt8) (n : Nat) : Prop :=
  (0x30 ≤ c.toNat ∧ c.toNat ≤ 0x39 ∧ n = c.toNat - 0x30) ∨
  (0x41 ≤ c.toNat ∧ c.toNat ≤ 0x46 ∧ n = c.toNat - 0x41 + 10) ∨
  (0x61 ≤ c.toNat ∧ c.toNat ≤ 0x66 ∧ n = c.toNat - 0x61 + 10)

/-- `text` is `\uXXXX` for the UTF-16 unit `u` -/
def UEsc (text : Bytes) (u : Nat) : Prop :=
  ∃ a b c d x3 x2 x1 x0, text = [0x5C, 0x75, a, b, c, d] ∧ Hex a x3 ∧ Hex b x2 ∧ Hex c x1 ∧ Hex d x0 ∧
    u = x3 * 4096 + x2 * 256 + x1 * 16 + x0

/-- two-character escapes: the character after the backslash and the byte meant -/
def EscChar (c b : UInt8) : Prop :=
  (c = 0x22 ∧ b = 0x22) ∨ (c = 0x5C ∧ b = 0x5C) ∨ (c = 0x2F ∧ b = 0x2F) ∨ (c = 0x62 ∧ b = 0x08) ∨
  (c = 0x66 ∧ b = 0x0C) ∨ (c = 0x6E ∧ b = 0x0A) ∨ (c = 0x72 ∧ b = 0x0D) ∨ (c = 0x74 ∧ b = 0x09)

/-- The inside of a string literal and the UTF-8 text it denotes (surrogate escapes must be paired). -/
inductive StrBody : Bytes → Bytes → Prop
  | nil : StrBody [] []
  | char (r : Nat) (t d : Bytes) : Scalar r → 0x20 ≤ r → r ≠ 0x22 → r ≠ 0x5C → StrBody t d →
      StrBody (utf8 r ++ t) (utf8 r ++ d)
  | esc (c b : UInt8) (t d : Bytes) : EscChar c b → StrBody t d → StrBody (0x5C :: c :: t) (b :: d)
  | uni (e : Bytes) (r : Nat) (t d : Bytes) : UEsc e r → Scalar r → StrBody t d → StrBody (e ++ t) (utf8 r ++ d)
  | pair (e1 e2 : Bytes) (hi lo : Nat) (t d : Bytes) : UEsc e1 hi → UEsc e2 lo → 0xD800 ≤ hi → hi < 0xDC00 → 0xDC00 ≤ lo → lo < 0xE000 →
      StrBody t d → StrBody (e1 ++ e2 ++ t) (utf8 (0x10000 + (hi - 0xD800) * 1024 + (lo - 0xDC00)) ++ d)

/-- string literal with quotes -/
def JStr (text d : Bytes) : Prop := ∃ body, text = 0x22 :: body ++ [0x22] ∧ StrBody body d

def Digit (c : UInt8) : Prop := 0x30 ≤ c.toNat ∧ c.toNat ≤ 0x39
def Digits (ds : Bytes) : Prop := ∀ c ∈ ds, Digit c

/-- `0` or a digit sequence without leading zero -/
def IntPart (ip : Bytes) : Prop :=
  ip = [0x30] ∨ ∃ d ds, ip = d :: ds ∧ 0x31 ≤ d.toNat ∧ d.toNat ≤ 0x39 ∧ Digits ds

def FracPart (fp : Bytes) : Prop := ∃ ds, fp = 0x2E :: ds ∧ ds ≠ [] ∧ Digits ds
def ExpPart (ep : Bytes) : Prop :=
  ∃ e sg ds, ep = e :: sg ++ ds ∧ (e = 0x65 ∨ e = 0x45) ∧ (sg = [] ∨ sg = [0x2B] ∨ sg = [0x2D]) ∧ ds ≠ [] ∧ Digits ds

def sign (neg : Bool) : Bytes := if neg then [0x2D] else []

/-- integer literal -/
def JInt (neg : Bool) (ip text : Bytes) : Prop := IntPart ip ∧ text = sign neg ++ ip

/-- literal with a fraction or an exponent -/
def JFloat (neg : Bool) (ip text : Bytes) : Prop :=
  ∃ fp ep, IntPart ip ∧ (fp = [] ∨ FracPart fp) ∧ (ep = [] ∨ ExpPart ep) ∧ fp ++ ep ≠ [] ∧ text = sign neg ++ ip ++ fp ++ ep

/-- number literal -/
def JNum (text : Bytes) : Prop := (∃ neg ip, JInt neg ip text) ∨ (∃ neg ip, JFloat neg ip text)

/-- value of a digit sequence -/
def decVal (ds : Bytes) : Nat := ds.foldl (fun a c => 10 * a + (c.toNat - 0x30)) 0

/-- value of an integer literal -/
def intVal (neg : Bool) (ip : Bytes) : Int := if neg then - (decVal ip : Int) else decVal ip

/-- insignificant white space -/
def Ws (s : Bytes) : Prop := ∀ c ∈ s, c = 0x20 ∨ c = 0x09 ∨ c = 0x0A ∨ c = 0x0D

mutual
/-- JSON value texts -/
inductive JVal : Bytes → J → Prop
  | null : JVal [0x6E, 0x75, 0x6C, 0x6C] .null
  | tru : JVal [0x74, 0x72, 0x75, 0x65] (.bool true)
  | fls : JVal [0x66, 0x61, 0x6C, 0x73, 0x65] (.bool false)
  | num (t : Bytes) : JNum t → JVal t (.num t)
  | str (t d : Bytes) : JStr t d → JVal t (.str d)
  | arrNil (w : Bytes) : Ws w → JVal (0x5B :: w ++ [0x5D]) (.arr [])
  | arr (t : Bytes) (xs : List J) : JElems t xs → JVal (0x5B :: t ++ [0x5D]) (.arr xs)
  | objNil (w : Bytes) : Ws w → JVal (0x7B :: w ++ [0x7D]) (.obj [])
  | obj (t : Bytes) (ms : List Mem) : JMems t ms → JVal (0x7B :: t ++ [0x7D]) (.obj ms)
/-- one or more comma separated elements with surrounding white space -/
inductive JElems : Bytes → List J → Prop
  | one (w1 t w2 : Bytes) (v : J) : Ws w1 → JVal t v → Ws w2 → JElems (w1 ++ t ++ w2) [v]
  | cons (w1 t w2 ts : Bytes) (v : J) (vs : List J) : Ws w1 → JVal t v → Ws w2 → JElems ts vs →
      JElems (w1 ++ t ++ w2 ++ 0x2C :: ts) (v :: vs)
/-- one or more comma separated members -/
inductive JMems : Bytes → List Mem → Prop
  | one (w1 k w2 w3 t w4 d : Bytes) (v : J) : Ws w1 → JStr k d → Ws w2 → Ws w3 → JVal t v → Ws w4 →
      JMems (w1 ++ k ++ w2 ++ 0x3A :: (w3 ++ t ++ w4)) [⟨d, v⟩]
  | cons (w1 k w2 w3 t w4 d ts : Bytes) (v : J) (vs : List Mem) : Ws w1 → JStr k d → Ws w2 → Ws w3 → JVal t v → Ws w4 → JMems ts vs →
      JMems (w1 ++ k ++ w2 ++ 0x3A :: (w3 ++ t ++ w4 ++ 0x2C :: ts)) (⟨d, v⟩ :: vs)
end

/-- a JSON text: a value with optional white space around it -/
def JText (s : Bytes) (j : J) : Prop := ∃ w1 t w2, s = w1 ++ t ++ w2 ∧ Ws w1 ∧ JVal t j ∧ Ws w2

/-- the value of key `k`: the last member with that key -/
def lastOf (k : Bytes) : List Mem → Option J
  | [] => none
  | ⟨k', v⟩ :: ms => match lastOf k ms with
    | some w => some w
    | none => if k' = k then some v else none

mutual
/-- every number of the document satisfies `P` -/
def J.AllNums (P : Bytes → Prop) : J → Prop
  | .num t => P t
  | .arr xs => AllNumsL P xs
  | .obj ms => AllNumsM P ms
  | _ => True
def AllNumsL (P : Bytes → Prop) : List J → Prop
  | [] => True
  | x :: xs => x.AllNums P ∧ AllNumsL P xs
def AllNumsM (P : Bytes → Prop) : List Mem → Prop
  | [] => True
  | ⟨_, v⟩ :: ms => v.AllNums P ∧ AllNumsM P ms
end

end Spec
