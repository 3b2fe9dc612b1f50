import Verif.Spec.Json
/-!
The language the parser really accepts. It extends JSON in these ways only:
* `\b` (0x08) counts as white space;
* the commas between elements or members may be missing, repeated, leading or trailing;
* inside strings: raw control characters, the escape `\'`, any byte after a UTF-8 lead byte, and any
  surrogate as the first half of a surrogate escape pair;
* number tokens: a predicate `numTok`, made explicit elsewhere.
-/
namespace Spec

def Blank (s : Bytes) : Prop := ∀ c ∈ s, c = 0x20 ∨ c = 0x0D ∨ c = 0x0A ∨ c = 0x09 ∨ c = 0x08
/-- separators between elements -/
def Sep (s : Bytes) : Prop := ∀ c ∈ s, c = 0x20 ∨ c = 0x0D ∨ c = 0x0A ∨ c = 0x09 ∨ c = 0x08 ∨ c = 0x2C

/-- length announced by a UTF-8 lead byte -/
def leadLen (c : UInt8) : Nat :=
  if 0xC0 ≤ c.toNat ∧ c.toNat ≤ 0xDF then 2 else if 0xE0 ≤ c.toNat ∧ c.toNat ≤ 0xEF then 3
  else if 0xF0 ≤ c.toNat ∧ c.toNat ≤ 0xF7 then 4 else 0

/-- the four-byte UTF-8 pattern with the low 21 bits of `r` -/
def utf8four (r : Nat) : Bytes :=
  [UInt8.ofNat (0xF0 + r / 262144 % 8), UInt8.ofNat (0x80 + r / 4096 % 64), UInt8.ofNat (0x80 + r / 64 % 64),
   UInt8.ofNat (0x80 + r % 64)]

/-- The inside of a string literal as accepted, with the bytes it yields. -/
inductive LStr : Bytes → Bytes → Prop
  | nil : LStr [] []
  | ascii (c : UInt8) (t d : Bytes) : c.toNat < 0x80 → c ≠ 0x22 → c ≠ 0x5C → LStr t d → LStr (c :: t) (c :: d)
  | multi (c : UInt8) (m t d : Bytes) : leadLen c = m.length + 1 → 0 < m.length → LStr t d → LStr (c :: m ++ t) (c :: m ++ d)
  | esc (c b : UInt8) (t d : Bytes) : (EscChar c b ∨ (c = 0x27 ∧ b = 0x27)) → LStr t d → LStr (0x5C :: c :: t) (b :: d)
  | uni (e : Bytes) (r : Nat) (t d : Bytes) : UEsc e r → (r < 0xD800 ∨ 0xE000 ≤ r) → LStr t d → LStr (e ++ t) (utf8 r ++ d)
  | pair (e1 e2 : Bytes) (hi lo : Nat) (t d : Bytes) : UEsc e1 hi → UEsc e2 lo → 0xD800 ≤ hi → hi < 0xE000 → 0xDC00 ≤ lo → lo < 0xE000 →
      LStr t d → LStr (e1 ++ e2 ++ t) (utf8four (0x10000 + (hi - 0xD800) * 1024 + (lo - 0xDC00)) ++ d)

/-- bytes that may continue a number token -/
def NumChar (c : UInt8) : Prop := Digit c ∨ c = 0x2B ∨ c = 0x2D ∨ c = 0x2E ∨ c = 0x65 ∨ c = 0x45
/-- a number token ends where no number character follows -/
def NumEnd (t : Bytes) : Prop := ∀ c t', t = c :: t' → ¬ NumChar c

/-- what has to follow a value -/
def Follow : J → Bytes → Prop
  | .num _, t => NumEnd t
  | _, _ => True

mutual
inductive LVal (numTok : Bytes → Prop) : Bytes → J → Prop
  | null : LVal numTok [0x6E, 0x75, 0x6C, 0x6C] .null
  | tru : LVal numTok [0x74, 0x72, 0x75, 0x65] (.bool true)
  | fls : LVal numTok [0x66, 0x61, 0x6C, 0x73, 0x65] (.bool false)
  | num (t : Bytes) : numTok t → LVal numTok t (.num t)
  | str (t d : Bytes) : LStr t d → LVal numTok (0x22 :: t ++ [0x22]) (.str d)
  | arr (t : Bytes) (xs : List J) : LElems numTok t xs → LVal numTok (0x5B :: t) (.arr xs)
  | obj (t : Bytes) (ms : List Mem) : LMems numTok t ms → LVal numTok (0x7B :: t) (.obj ms)
/-- the rest of an array after `[`, up to and including `]` -/
inductive LElems (numTok : Bytes → Prop) : Bytes → List J → Prop
  | nil (s : Bytes) : Sep s → LElems numTok (s ++ [0x5D]) []
  | cons (s t ts : Bytes) (v : J) (vs : List J) : Sep s → LVal numTok t v → LElems numTok ts vs → Follow v ts →
      LElems numTok (s ++ t ++ ts) (v :: vs)
/-- the rest of an object after `{`, up to and including `}` -/
inductive LMems (numTok : Bytes → Prop) : Bytes → List Mem → Prop
  | nil (s : Bytes) : Sep s → LMems numTok (s ++ [0x7D]) []
  | cons (s k b1 b2 t ts d : Bytes) (v : J) (vs : List Mem) : Sep s → LStr k d → Blank b1 → Blank b2 →
      LVal numTok t v → LMems numTok ts vs → Follow v ts →
      LMems numTok (s ++ 0x22 :: k ++ 0x22 :: b1 ++ 0x3A :: b2 ++ t ++ ts) (⟨d, v⟩ :: vs)
end

/-- an accepted text -/
def LText (numTok : Bytes → Prop) (s : Bytes) (j : J) : Prop :=
  ∃ b1 t b2, s = b1 ++ t ++ b2 ∧ Blank b1 ∧ LVal numTok t j ∧ Blank b2 

/-! number tokens as really accepted -/

/-- Accepted integer tokens. Beyond JSON: a negative literal may have one leading zero; a 20 digit literal is accepted when its
value modulo 2^64 is at least 10^19. -/
def IntTok (neg : Bool) (ds : Bytes) : Prop :=
  Digits ds ∧ ds ≠ [] ∧
  if neg then
    (∀ u, ds ≠ 0x30 :: 0x30 :: u) ∧ (ds.length ≤ 18 ∨ (ds.length = 19 ∧ decVal ds ≤ 2 ^ 63))
  else
    (∀ c u, ds ≠ 0x30 :: c :: u) ∧ (ds.length ≤ 19 ∨ (ds.length = 20 ∧ 10 ^ 19 ≤ decVal ds % 2 ^ 64))

/-- In the integer part of a floating point token a zero may only follow digits whose value is not a multiple of 2^64
(except right after the sign). -/
def ZerosOK (ip : Bytes) : Prop :=
  ∀ p q, ip = p ++ 0x30 :: q → (decVal p % 2 ^ 64 ≠ 0 ∨ p = [])

/-- Floating point tokens as far as the scanner is concerned. Beyond JSON: leading zeros, and an empty integer part after a sign. -/
def FloatTok (neg : Bool) (ip fp ep text : Bytes) : Prop :=
  Digits ip ∧ (fp = [] ∨ FracPart fp) ∧ (ep = [] ∨ ExpPart ep) ∧ fp ++ ep ≠ [] ∧ (ip = [] → neg = true ∧ fp ≠ []) ∧ ZerosOK ip ∧
  text = sign neg ++ ip ++ fp ++ ep

/-- Syntax of `strconv.ParseFloat` for texts that consist of digits, signs, dots and `e`/`E`. -/
def GoFloat (text : Bytes) : Prop :=
  ∃ sg ip fp ds ep, text = sg ++ ip ++ fp ++ ep ∧ (sg = [] ∨ sg = [0x2B] ∨ sg = [0x2D]) ∧ Digits ip ∧
    (fp = [] ∨ (fp = 0x2E :: ds ∧ Digits ds)) ∧ (ep = [] ∨ ExpPart ep) ∧ (ip ≠ [] ∨ (fp ≠ [] ∧ ds ≠ []))

end Spec
