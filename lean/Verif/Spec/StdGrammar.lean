import Verif.Spec.Json
/-!
The texts that the scanner of package encoding/json lets pass (its published source, scanner.go): JSON, except that it looks at string literals byte by
byte, so that they may have bytes that are not UTF-8 and surrogate escapes that are not paired. (The decoder repairs them.) This file does not refer to
the model.
-/
namespace Spec

/-- one of the four digits of a `\u` escape -/
def HexCh (c : UInt8) : Prop := ∃ n, Hex c n

/-- the inside of a string literal: scanner.go `stateInString` to `stateInStringEscU123` -/
inductive RawBody : Bytes → Prop
  | nil : RawBody []
  | char (c t) : 0x20 ≤ c.toNat → c ≠ 0x22 → c ≠ 0x5C → RawBody t → RawBody (c :: t)
  | esc (c b t) : EscChar c b → RawBody t → RawBody (0x5C :: c :: t)
  | uni (a b c d t) : HexCh a → HexCh b → HexCh c → HexCh d → RawBody t → RawBody (0x5C :: 0x75 :: a :: b :: c :: d :: t)

def RawStr (text body : Bytes) : Prop := text = 0x22 :: body ++ [0x22] ∧ RawBody body

mutual
/-- values; the document has the strings as they are written -/
inductive GVal : Bytes → J → Prop
  | null : GVal [0x6E, 0x75, 0x6C, 0x6C] .null
  | tru : GVal [0x74, 0x72, 0x75, 0x65] (.bool true)
  | fls : GVal [0x66, 0x61, 0x6C, 0x73, 0x65] (.bool false)
  | num (t : Bytes) : JNum t → GVal t (.num t)
  | str (t b : Bytes) : RawStr t b → GVal t (.str b)
  | arrNil (w : Bytes) : Ws w → GVal (0x5B :: w ++ [0x5D]) (.arr [])
  | arr (t : Bytes) (xs : List J) : GElems t xs → GVal (0x5B :: t ++ [0x5D]) (.arr xs)
  | objNil (w : Bytes) : Ws w → GVal (0x7B :: w ++ [0x7D]) (.obj [])
  | obj (t : Bytes) (ms : List Mem) : GMems t ms → GVal (0x7B :: t ++ [0x7D]) (.obj ms)
/-- one or more comma separated elements with surrounding white space -/
inductive GElems : Bytes → List J → Prop
  | one (w1 t w2 : Bytes) (v : J) : Ws w1 → GVal t v → Ws w2 → GElems (w1 ++ t ++ w2) [v]
  | cons (w1 t w2 ts : Bytes) (v : J) (vs : List J) : Ws w1 → GVal t v → Ws w2 → GElems ts vs →
      GElems (w1 ++ t ++ w2 ++ 0x2C :: ts) (v :: vs)
/-- one or more comma separated members -/
inductive GMems : Bytes → List Mem → Prop
  | one (w1 k w2 w3 t w4 b : Bytes) (v : J) : Ws w1 → RawStr k b → Ws w2 → Ws w3 → GVal t v → Ws w4 →
      GMems (w1 ++ k ++ w2 ++ 0x3A :: (w3 ++ t ++ w4)) [⟨b, v⟩]
  | cons (w1 k w2 w3 t w4 b ts : Bytes) (v : J) (vs : List Mem) : Ws w1 → RawStr k b → Ws w2 → Ws w3 → GVal t v → Ws w4 → GMems ts vs →
      GMems (w1 ++ k ++ w2 ++ 0x3A :: (w3 ++ t ++ w4 ++ 0x2C :: ts)) (⟨b, v⟩ :: vs)
end

/-- a text that passes, apart from the limit for nesting -/
def GText (s : Bytes) (j : J) : Prop := ∃ w1 t w2, s = w1 ++ t ++ w2 ∧ Ws w1 ∧ GVal t j ∧ Ws w2

-- not UTF-8, and half of a surrogate pair
example : RawBody [0xFF, 0x5C, 0x75, 0x64, 0x38, 0x30, 0x30] :=
  .char _ _ (by decide) (by decide) (by decide) (.uni _ _ _ _ _ ⟨13, by unfold Hex; decide⟩ ⟨8, by unfold Hex; decide⟩ ⟨0, by unfold Hex; decide⟩ ⟨0, by unfold Hex; decide⟩ .nil)

end Spec
