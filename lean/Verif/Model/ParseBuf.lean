import Verif.Model.Value
/-!
unmarshal.go as written: one mutable buffer, integer offsets, values that refer to the buffer.

Functions that mutate the buffer return it. Offsets are natural numbers (they are never negative in
the code; `-1` results only accompany errors). Every index and slice expression goes through
`rd`/`wr`/`slice` and may panic. Loops are given fuel.
-/
namespace JV

mutual
/-- A value while parsing: strings, keys and number texts are ranges `[s, e)` of the shared buffer
(`unsafe.BtoS(it[s:e])`, `srcByte = it[s:e]`). -/
inductive PV where
  | str (s e : Nat)
  | num (s e : Nat) (n : Num)
  | bool (b : Bool)
  | null
  | arr (xs : List PV)
  | obj (incr : BitVec 32) (kvs : List PEnt)
inductive PEnt where
  | mk (s e : Nat) (id : BitVec 32) (v : PV)
end

mutual
/-- What the value reads as when the buffer holds `it`. -/
def PV.res (it : Bytes) : PV → V
  | .str s e => .str (sub it s e)
  | .num s e n => .num (sub it s e) n
  | .bool b => .bool b
  | .null => .null
  | .arr xs => .arr (PV.resL it xs)
  | .obj i kvs => .obj i (PV.resE it kvs) none
def PV.resL (it : Bytes) : List PV → List V
  | [] => []
  | x :: xs => x.res it :: PV.resL it xs
def PV.resE (it : Bytes) : List PEnt → List Ent
  | [] => []
  | ⟨s, e, i, v⟩ :: xs => ⟨sub it s e, i, v.res it⟩ :: PV.resE it xs
end

/-- set.go:167-174 `setToObjectChildren` on a fresh object (`lowerCaseKeys` is nil, so no caseless
bookkeeping). The key's bytes are those in the buffer at this moment. -/
def pAssign (it : Bytes) (s e : Nat) (id : BitVec 32) (v : PV) : List PEnt → List PEnt
  | [] => [⟨s, e, id, v⟩]
  | ⟨s', e', id', v'⟩ :: xs =>
    if sub it s' e' = sub it s e then ⟨s, e, id, v⟩ :: xs else ⟨s', e', id', v'⟩ :: pAssign it s e id v xs

/-- unmarshal.go:652-671 `skipBlanks` with `end = len(it)` (every call site passes it). Returns the new offset
and `reachEnd`. -/
def skipLoopB (it : Bytes) : Nat → Nat → R (Nat × Bool)
  | 0, _ => .diverge
  | f+1, offset =>
    if offset < it.length then do
      let chr ← rd it offset
      if chr = 0x20 ∨ chr = 0x0D ∨ chr = 0x0A ∨ chr = 0x09 ∨ chr = 0x08 then skipLoopB it f (offset + 1)
      else pure (offset, false)
    else pure (it.length, true)

/-- unmarshal.go:652-671 -/
def skipBlanksB (it : Bytes) (offset : Nat) : R (Nat × Bool) := skipLoopB it (it.length + 1) offset

/-- unmarshal.go:535-547 `chrToHex`: value, and whether it is a hex digit (an error is recorded otherwise) -/
def chrToHex (c : UInt8) : Option Nat :=
  if 0x30 ≤ c ∧ c ≤ 0x39 then some (c.toNat - 0x30)
  else if 0x41 ≤ c ∧ c ≤ 0x46 then some (c.toNat - 0x41 + 10)
  else if 0x61 ≤ c ∧ c ≤ 0x66 then some (c.toNat - 0x61 + 10)
  else none

/-- the four digits of `\uXXXX` (unmarshal.go:477-485, 504-512); all four are examined before the error is returned -/
def hex4 (a b c d : UInt8) : R Nat :=
  match chrToHex a, chrToHex b, chrToHex c, chrToHex d with
  | some x3, some x2, some x1, some x0 => .ok ((x3 <<< 12) + (x2 <<< 8) + (x1 <<< 4) + x0)
  | _, _, _, _ => .err .other

/-- unmarshal.go:513-527: the rune for two UTF-16 units, `r` in D800..DFFF -/
def surrogatePair (r ex : Nat) : R Nat :=
  if ex < 0xDC00 then .err .illegalString
  else if ex - 0xDC00 > 0x03FF then .err .illegalString
  else .ok (((r - 0xD800) <<< 10) + (ex - 0xDC00) + 0x10000)

/-- unmarshal.go:593-603 -/
def lead2 (c : UInt8) : Bool := (c &&& 0xE0) == 0xC0
def lead3 (c : UInt8) : Bool := (c &&& 0xF0) == 0xE0
def lead4 (c : UInt8) : Bool := (c &&& 0xF8) == 0xF0

/-- unmarshal.go:562-591 `assignASCIICodedRune`: the UTF-8 bytes written for `r`. Runes here are never negative. -/
def runeBytes (r : Nat) : Bytes :=
  if r ≤ 0x7F then [UInt8.ofNat r]
  else if r ≤ 0x7FF then [UInt8.ofNat ((r &&& 0x7C0) >>> 6) + 0xC0, UInt8.ofNat ((r &&& 0x3F) >>> 0) + 0x80]
  else if r ≤ 0xFFFF then
    [UInt8.ofNat ((r &&& 0xF000) >>> 12) + 0xE0, UInt8.ofNat ((r &&& 0x0FC0) >>> 6) + 0x80,
     UInt8.ofNat ((r &&& 0x3F) >>> 0) + 0x80]
  else
    [UInt8.ofNat ((r &&& 0x1C0000) >>> 18) + 0xF0, UInt8.ofNat ((r &&& 0x03F000) >>> 12) + 0x80,
     UInt8.ofNat ((r &&& 0x000FC0) >>> 6) + 0x80, UInt8.ofNat ((r &&& 0x3F) >>> 0) + 0x80]

/-- writes `bs` at `dst`, one byte at a time; the code writes the last one first (so an out of range write
panics before anything is written), the final contents are the same -/
def wrs (it : Bytes) (dst : Nat) : Bytes → R Bytes
  | [] => .ok it
  | b :: bs => do
    let it ← wr it dst b
    wrs it (dst + 1) bs

/-- unmarshal.go:549-560 `memcpy`: Go's `copy` reads as if all of the source were read first. -/
def memcpyB (it : Bytes) (dst src len : Nat) : R Bytes :=
  if dst = src then .ok it
  else do
    let s ← slice it src (src + len)
    let _ ← slice it dst (dst + len)
    wrs it dst s

/-- unmarshal.go:472-533 `handleEscapeUnicodeStartWithEnd`, `end = len(it)-1`. Returns buffer, i, sectEnd.
The arithmetic `end - *i <= 5` is written additively. -/
def escUnicodeB (it : Bytes) (i se : Nat) : R (Bytes × Nat × Nat) :=
  if it.length ≤ i + 6 then .err .other
  else do
    let a ← rd it (i+2)
    let b ← rd it (i+3)
    let c ← rd it (i+4)
    let d ← rd it (i+5)
    let r ← hex4 a b c d
    if r ≤ 0xD7FF ∨ r ≥ 0xE000 then do
      let it ← wrs it se (runeBytes r)
      pure (it, i + 6, se + (runeBytes r).length)
    else if it.length ≤ i + 12 then .err .other
    else do
      let p ← rd it (i+6)
      if p ≠ 0x5C then .err .other
      else do
        let q ← rd it (i+7)
        if q ≠ 0x75 then .err .other
        else do
          let a ← rd it (i+8)
          let b ← rd it (i+9)
          let c ← rd it (i+10)
          let d ← rd it (i+11)
          let ex ← hex4 a b c d
          let r ← surrogatePair r ex
          let it ← wrs it se (runeBytes r)
          pure (it, i + 12, se + (runeBytes r).length)

/-- the characters after a backslash that stand for one byte, unmarshal.go:442-465 -/
def simpleEsc (c : UInt8) : Option UInt8 :=
  if c = 0x22 ∨ c = 0x27 ∨ c = 0x2F ∨ c = 0x5C then some c
  else if c = 0x62 then some 0x08
  else if c = 0x66 then some 0x0C
  else if c = 0x72 then some 0x0D
  else if c = 0x6E then some 0x0A
  else if c = 0x74 then some 0x09
  else none

/-- unmarshal.go:433-470 `handleEscapeStart` -/
def escStartB (it : Bytes) (i se : Nat) : R (Bytes × Nat × Nat) :=
  if it.length ≤ i + 1 then .err .other
  else do
    let chr ← rd it (i+1)
    match simpleEsc chr with
    | some b => do
      let it ← wr it se b
      pure (it, i + 2, se + 1)
    | none => if chr = 0x75 then escUnicodeB it i se else .err .other

/-- unmarshal.go:386-397, the closure `shift` -/
def shiftB (it : Bytes) (i se le : Nat) : R (Bytes × Nat × Nat) :=
  if it.length < i + le then .err .illegalString
  else do
    let it ← memcpyB it se i le
    pure (it, i + le, se + le)

/-- one iteration of unmarshal.go:400-427; `none`: closing quote -/
def strStepB (it : Bytes) (i se : Nat) : R (Option (Bytes × Nat × Nat)) := do
  let chr ← rd it i
  if chr = 0x5C then return some (← escStartB it i se)
  else if chr = 0x22 then return none
  else if chr ≤ 0x7F then do
    let it ← wr it se chr
    return some (it, i + 1, se + 1)
  else if lead2 chr then return some (← shiftB it i se 2)
  else if lead3 chr then return some (← shiftB it i se 3)
  else if lead4 chr then return some (← shiftB it i se 4)
  else .err .illegalString

/-- unmarshal.go:400-431 the loop. Returns buffer, `sectEnd` and the offset after the quote. -/
def strLoopB : Nat → Bytes → Nat → Nat → R (Bytes × Nat × Nat)
  | 0, _, _, _ => .diverge
  | f+1, it, i, se =>
    if i < it.length then do
      match ← strStepB it i se with
      | none => pure (it, se, i + 1)
      | some (it, i, se) => strLoopB f it i se
    else .err .other

/-- unmarshal.go:381-431 `parseStrFromBytesForwardWithQuote`; returns buffer, `offset+1+sectLenWithoutQuote` (the end of the
decoded text) and `sectEnd` (the offset after the closing quote). -/
def parseStrB (f : Nat) (it : Bytes) (offset : Nat) : R (Bytes × Nat × Nat) := strLoopB f it (offset + 1) (offset + 1)

/-- unmarshal.go:605-649: `parseTrue`, `parseFalse`, `parseNull`: reads stop at the first mismatch. -/
def matchB (it : Bytes) (i : Nat) : Bytes → R Bool
  | [] => .ok true
  | b :: bs => do
    let c ← rd it i
    if c = b then matchB it (i+1) bs else pure false

def parseLitB (it : Bytes) (offset : Nat) (lit : Bytes) (eShort eBad : Err) : R Nat :=
  if it.length < offset + lit.length then .err eShort
  else do
    if ← matchB it offset lit then pure (offset + lit.length) else .err eBad

/-- "true", "false", "null" -/
def litTrue : Bytes := [0x74, 0x72, 0x75, 0x65]
def litFalse : Bytes := [0x66, 0x61, 0x6C, 0x73, 0x65]
def litNull : Bytes := [0x6E, 0x75, 0x6C, 0x6C]

/-- unmarshal.go:605-618 -/
def parseTrueB (it : Bytes) (o : Nat) := parseLitB it o litTrue .notValidBoolValue .notValidBoolValue
/-- unmarshal.go:620-634 -/
def parseFalseB (it : Bytes) (o : Nat) := parseLitB it o litFalse .notValidBoolValue .notValidBoolValue
/-- unmarshal.go:636-649; the mismatch error really is ErrNotValidBoolValue -/
def parseNullB (it : Bytes) (o : Nat) := parseLitB it o litNull .notValidNullValue .notValidBoolValue

/-- local variables of `iter.parseNumber`, unmarshal.go:681-688 -/
structure NumSt where
  negative : Bool := false
  floated : Bool := false
  exponentGot : Bool := false
  dotGot : Bool := false
  intAfterDotGot : Bool := false
  integer : BitVec 64 := 0#64
deriving DecidableEq, Repr

/-- `'1'..'9'` -/
def isDigit19 (b : UInt8) : Bool := 0x31 ≤ b && b ≤ 0x39
/-- `'0'..'9'` -/
def isDigit (b : UInt8) : Bool := 0x30 ≤ b && b ≤ 0x39

/-- body of the loop unmarshal.go:693-759 for byte `b`; `pos = idx - offset`. `none`: edge found. -/
def numStep (pos : Nat) (st : NumSt) (b : UInt8) : R (Option NumSt) :=
  if b = 0x30 then
    if pos = 0 then pure (some { st with integer := st.integer * 10 })
    else if st.exponentGot then pure (some { st with integer := st.integer * 10 })
    else if st.dotGot then pure (some { st with intAfterDotGot := true, integer := st.integer * 10 })
    else if st.negative then
      if st.integer = 0#64 ∧ pos ≠ 1 then .err .other else pure (some { st with integer := st.integer * 10 })
    else if st.integer = 0#64 then .err .other
    else pure (some { st with integer := st.integer * 10 })
  else if isDigit19 b then
    if !st.floated then pure (some { st with integer := st.integer * 10 + BitVec.ofNat 64 b.toNat - 0x30 })
    else if !st.exponentGot then pure (some { st with intAfterDotGot := true })
    else pure (some st)
  else if b = 0x65 ∨ b = 0x45 then
    if st.exponentGot then .err .other else pure (some { st with exponentGot := true, floated := true })
  else if b = 0x2B then
    if !st.exponentGot then .err .other else pure (some st)
  else if b = 0x2D then
    if !st.floated then
      if pos ≠ 0 then .err .other else pure (some { st with negative := true })
    else pure (some st)
  else if b = 0x2E then
    if pos = 0 ∨ st.floated ∨ st.exponentGot ∨ st.dotGot then .err .other
    else pure (some { st with dotGot := true, floated := true })
  else pure none

/-- the loop unmarshal.go:692-764; returns the state and `idx` (the `idx--` after an edge included) -/
def numLoopB (it : Bytes) (offset : Nat) : Nat → Nat → NumSt → R (NumSt × Nat)
  | 0, _, _ => .diverge
  | f+1, idx, st =>
    if idx < it.length then do
      let b ← rd it idx
      match ← numStep (idx - offset) st b with
      | none => pure (st, idx)
      | some st => numLoopB it offset f (idx + 1) st
    else pure (st, idx)

/-- unmarshal.go:832-848 `parseFloatResult` without the slice -/
def floatResult (E : Env) (text : Bytes) : R Num :=
  match E.parseFloat text with
  | none => .err .other
  | some f => .ok { negative := fltNeg f, floated := true, i64 := E.f64ToI64 f, u64 := E.f64ToU64 f, f64 := f }

/-- unmarshal.go:850-871 `parsePositiveIntResult`; `le = end - start` -/
def positiveIntResult (E : Env) (le : Nat) (integer : BitVec 64) : R Num :=
  if le > 20 then .err .other
  else if le = 20 ∧ integer < 10000000000000000000#64 then .err .other
  else .ok { negative := false, floated := false, i64 := integer, u64 := integer, f64 := E.u64ToF64 integer }

/-- unmarshal.go:873-900 `parseNegativeIntResult` -/
def negativeIntResult (E : Env) (le : Nat) (integer : BitVec 64) : R Num :=
  if le > 20 then .err .other
  else if le = 20 ∧ integer > 9223372036854775808#64 then .err .other
  else
    let i : BitVec 64 := if integer = 9223372036854775808#64 then 9223372036854775808#64 else - integer
    .ok { negative := true, floated := false, i64 := i, u64 := i, f64 := fneg (E.u64ToF64 integer) }

/-- unmarshal.go:788-792 -/
def intResult (E : Env) (negative : Bool) (le : Nat) (integer : BitVec 64) : R Num :=
  if negative then negativeIntResult E le integer else positiveIntResult E le integer

/-- unmarshal.go:677-796 `iter.parseNumber`; returns the number and `end`. -/
def parseNumberB (E : Env) (it : Bytes) (offset : Nat) : R (Num × Nat) := do
  let (st, idx) ← numLoopB it offset (it.length + 1) offset {}
  if st.floated then
    if st.dotGot && !st.intAfterDotGot then .err .other
    else do
      let text ← slice it offset idx
      let n ← floatResult E text
      pure (n, idx)
  else do
    -- `integer > 0 && it[offset] == '0'` then `firstB := it[offset]`
    let firstB ← rd it offset
    if st.integer > 0#64 ∧ firstB = 0x30 then .err .other
    else if idx - offset = 1 ∧ ¬ (isDigit firstB) then .err .other
    else do
      let n ← intResult E st.negative (idx - offset) st.integer
      let _ ← slice it offset idx
      pure (n, idx)

/-- `case '0', ..., '9', '-'` -/
def isNumStart (c : UInt8) : Bool := isDigit c || c == 0x2D

/-- a value that is not an object or array, the shared part of the switches in unmarshal.go:29-61, 118-158, 266-340:
`c = it[offset]` is the first character. `none`: no such case. -/
def parseScalarB (E : Env) (f : Nat) (it : Bytes) (offset : Nat) (c : UInt8) : R (Option (Bytes × PV × Nat)) :=
  if isNumStart c then do
    let (n, e) ← parseNumberB E it offset
    pure (some (it, .num offset e n, e))
  else if c = 0x22 then do
    let (it, se, e) ← parseStrB f it offset
    let _ ← slice it (offset + 1) se
    pure (some (it, .str (offset + 1) se, e))
  else if c = 0x74 then do
    let e ← parseTrueB it offset
    pure (some (it, .bool true, e))
  else if c = 0x66 then do
    let e ← parseFalseB it offset
    pure (some (it, .bool false, e))
  else if c = 0x6E then do
    let e ← parseNullB it offset
    pure (some (it, .null, e))
  else pure none

/-- local variables of `unmarshalObjectWithIterUnknownEnd`: `key = some (keyStart, keyEnd)` stands for `keyEnd > 0`
(an end position is never 0 because a key starts after `{`). -/
structure ObjSt where
  key : Option (Nat × Nat) := none
  colon : Bool := false
  incr : BitVec 32 := 0
  kvs : List PEnt := []

/-- `setToObjectChildren(obj, unsafe.BtoS(it[keyStart:keyEnd]), v); keyEnd, colonFound = 0, false`, unmarshal.go:250-251 -/
def setMemberB (it : Bytes) (st : ObjSt) (s e : Nat) (v : PV) : R ObjSt := do
  let _ ← slice it s e
  pure { key := none, colon := false, incr := st.incr + 1, kvs := pAssign it s e (st.incr + 1) v st.kvs }

mutual
/-- unmarshal.go:86-166, the loop of `unmarshalArrayWithIterUnknownEnd` (`right = len(it)` at every call);
the caller has already stepped over `[`. Returns buffer, value, end. -/
def arrLoopB (E : Env) : Nat → Bytes → Nat → List PV → R (Bytes × PV × Nat)
  | 0, _, _, _ => .diverge
  | f+1, it, offset, acc =>
    if offset < it.length then do
      let (offset, reachEnd) ← skipBlanksB it offset
      if reachEnd then .err .notArrayValue
      else do
        let chr ← rd it offset
        if chr = 0x5D then pure (it, .arr acc, offset + 1)
        else if chr = 0x2C then arrLoopB E f it (offset + 1) acc
        else if chr = 0x7B then do
          let (it, v, e) ← objLoopB E f it (offset + 1) {}
          arrLoopB E f it e (acc ++ [v])
        else if chr = 0x5B then do
          let (it, v, e) ← arrLoopB E f it (offset + 1) []
          arrLoopB E f it e (acc ++ [v])
        else do
          match ← parseScalarB E (f+1) it offset chr with
          | some (it, v, e) => arrLoopB E f it e (acc ++ [v])
          | none => .err .rawBytesUnrecognized
    else .err .notArrayValue
/-- unmarshal.go:209-348, the loop of `unmarshalObjectWithIterUnknownEnd`; the caller has stepped over `{`. -/
def objLoopB (E : Env) : Nat → Bytes → Nat → ObjSt → R (Bytes × PV × Nat)
  | 0, _, _, _ => .diverge
  | f+1, it, offset, st =>
    if offset < it.length then do
      let (offset, reachEnd) ← skipBlanksB it offset
      if reachEnd then .err .notObjectValue
      else do
        let chr ← rd it offset
        if chr = 0x7D then
          match st.key with
          | some _ => .err .notObjectValue
          | none => pure (it, .obj st.incr st.kvs, offset + 1)
        else if chr = 0x2C then
          match st.key with
          | some _ => .err .notObjectValue
          | none => objLoopB E f it (offset + 1) st
        else if chr = 0x3A then
          if st.colon then .err .notObjectValue
          else match st.key with
            | none => .err .notObjectValue
            | some _ => objLoopB E f it (offset + 1) { st with colon := true }
        else if chr = 0x22 then
          match st.key with
          | some (s, e) =>
            if !st.colon then .err .notObjectValue
            else do
              let (it, se, e') ← parseStrB (f+1) it offset
              let _ ← slice it (offset + 1) se
              let st ← setMemberB it st s e (.str (offset + 1) se)
              objLoopB E f it e' st
          | none => do
            let (it, se, e') ← parseStrB (f+1) it offset
            objLoopB E f it e' { st with key := some (offset + 1, se) }
        else if chr = 0x7B ∨ chr = 0x5B ∨ isNumStart chr ∨ chr = 0x74 ∨ chr = 0x66 ∨ chr = 0x6E then
          -- keyNotFoundErr, unmarshal.go:185-197
          match st.key with
          | none => .err .notObjectValue
          | some (s, e) =>
            if !st.colon then .err .notObjectValue
            else if chr = 0x7B then do
              let (it, v, e') ← objLoopB E f it (offset + 1) {}
              let st ← setMemberB it st s e v
              objLoopB E f it e' st
            else if chr = 0x5B then do
              let (it, v, e') ← arrLoopB E f it (offset + 1) []
              let st ← setMemberB it st s e v
              objLoopB E f it e' st
            else do
              match ← parseScalarB E (f+1) it offset chr with
              | some (it, v, e') => do
                let st ← setMemberB it st s e v
                objLoopB E f it e' st
              | none => .err .rawBytesUnrecognized
        else .err .rawBytesUnrecognized
    else .err .notObjectValue
end

/-- unmarshal.go:21-69, the dispatch on the first character `chr = it[offset]` -/
def parseValueB (E : Env) (f : Nat) (it : Bytes) (offset : Nat) (chr : UInt8) : R (Bytes × PV × Nat) :=
  if chr = 0x7B then objLoopB E f it (offset + 1) {}
  else if chr = 0x5B then arrLoopB E f it (offset + 1) []
  else do
    match ← parseScalarB E f it offset chr with
    | some r => pure r
    | none => .err .rawBytesUnrecognized

/-- unmarshal.go:14-76 `unmarshalWithIter` from offset 0; returns the final buffer too. On error the code returns
`&V{}` besides the error. The fuel is the length plus one; C01 shows it is never exhausted. -/
def unmarshalWithIterB (E : Env) (it : Bytes) : R (Bytes × PV) := do
  let fuel := it.length + 1
  let (offset, reachEnd) ← skipBlanksB it 0
  if reachEnd then .err .rawBytesUnrecognized
  else do
    let chr ← rd it offset
    let (it, v, e) ← parseValueB E fuel it offset chr
    let (_, reachEnd) ← skipBlanksB it e
    if reachEnd then pure (it, v) else .err .rawBytesUnrecognized

end JV
