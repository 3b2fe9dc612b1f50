import Verif.Model.ParseBuf
/-!
The same parser on immutable suffixes: each function takes the text still to be read and returns
the value and the rest. `Proofs/Refine.lean` shows that the buffer program of `ParseBuf` computes
exactly this, so all later theorems about parsing talk about these functions.
The citations are those of the corresponding `...B` definitions.
-/
namespace JV

/-- unmarshal.go:663 the blanks -/
def isBlank (c : UInt8) : Bool := c == 0x20 || c == 0x0D || c == 0x0A || c == 0x09 || c == 0x08

/-- unmarshal.go:652-671 -/
def skipBlanks : Bytes → Bytes
  | [] => []
  | c :: t => if isBlank c then skipBlanks t else c :: t

/-- unmarshal.go:472-533; the argument is the text after `\u` -/
def escUnicode : Bytes → R (Bytes × Bytes)
  | a :: b :: c :: d :: x :: t => do
    let r ← hex4 a b c d
    if r ≤ 0xD7FF ∨ r ≥ 0xE000 then pure (runeBytes r, x :: t)
    else match t with
      | q :: a :: b :: c :: d :: y :: t =>
        if x ≠ 0x5C then .err .other
        else if q ≠ 0x75 then .err .other
        else do
          let ex ← hex4 a b c d
          let r ← surrogatePair r ex
          pure (runeBytes r, y :: t)
      | _ => .err .other
  | _ => .err .other

/-- unmarshal.go:386-397 -/
def shiftA (s : Bytes) (n : Nat) : R (Bytes × Bytes) :=
  if s.length < n then .err .illegalString else .ok (s.take n, s.drop n)

/-- unmarshal.go:400-427: one decoded piece and the rest, or `none` at the closing quote -/
def strStep (c : UInt8) (t : Bytes) : R (Option (Bytes × Bytes)) :=
  if c = 0x5C then
    match t with
    | [] => .err .other
    | e :: t =>
      match simpleEsc e with
      | some b => pure (some ([b], t))
      | none => if e = 0x75 then do return some (← escUnicode t) else .err .other
  else if c = 0x22 then pure none
  else if c ≤ 0x7F then pure (some ([c], t))
  else if lead2 c then do return some (← shiftA (c :: t) 2)
  else if lead3 c then do return some (← shiftA (c :: t) 3)
  else if lead4 c then do return some (← shiftA (c :: t) 4)
  else .err .illegalString

/-- unmarshal.go:381-431 from after the opening quote -/
def strLoop : Nat → Bytes → Bytes → R (Bytes × Bytes)
  | 0, _, _ => .diverge
  | _+1, [], _ => .err .other
  | f+1, c :: t, acc => do
    match ← strStep c t with
    | none => pure (acc, t)
    | some (bs, t) => strLoop f t (acc ++ bs)

/-- unmarshal.go:692-764 -/
def numLoop (acc : Bytes) (st : NumSt) : Bytes → R (NumSt × Bytes × Bytes)
  | [] => .ok (st, acc, [])
  | b :: t => do
    match ← numStep acc.length st b with
    | none => pure (st, acc, b :: t)
    | some st => numLoop (acc ++ [b]) st t

/-- unmarshal.go:677-796; number, its text, the rest -/
def parseNumber (E : Env) (s : Bytes) : R (Num × Bytes × Bytes) := do
  let (st, text, rest) ← numLoop [] {} s
  if st.floated then
    if st.dotGot && !st.intAfterDotGot then .err .other
    else do
      let n ← floatResult E text
      pure (n, text, rest)
  else do
    let firstB ← rd s 0
    if st.integer > 0#64 ∧ firstB = 0x30 then .err .other
    else if text.length = 1 ∧ ¬ (isDigit firstB) then .err .other
    else do
      let n ← intResult E st.negative text.length st.integer
      pure (n, text, rest)

/-- unmarshal.go:605-649 -/
def parseLit (s lit : Bytes) (eShort eBad : Err) : R Bytes :=
  if s.length < lit.length then .err eShort
  else if s.take lit.length = lit then .ok (s.drop lit.length) else .err eBad

/-- unmarshal.go:29-61; `c :: t` is the text -/
def parseScalar (E : Env) (f : Nat) (c : UInt8) (t : Bytes) : R (Option (V × Bytes)) :=
  if isNumStart c then do
    let (n, text, rest) ← parseNumber E (c :: t)
    pure (some (.num text n, rest))
  else if c = 0x22 then do
    let (s, rest) ← strLoop f t []
    pure (some (.str s, rest))
  else if c = 0x74 then do
    let rest ← parseLit (c :: t) litTrue .notValidBoolValue .notValidBoolValue
    pure (some (.bool true, rest))
  else if c = 0x66 then do
    let rest ← parseLit (c :: t) litFalse .notValidBoolValue .notValidBoolValue
    pure (some (.bool false, rest))
  else if c = 0x6E then do
    let rest ← parseLit (c :: t) litNull .notValidNullValue .notValidBoolValue
    pure (some (.null, rest))
  else pure none

/-- object under construction -/
structure OSt where
  key : Option Bytes := none
  colon : Bool := false
  incr : BitVec 32 := 0
  kvs : List Ent := []

/-- set.go:167-174 -/
def setMember (st : OSt) (k : Bytes) (v : V) : OSt :=
  { key := none, colon := false, incr := st.incr + 1, kvs := assign ⟨k, st.incr + 1, v⟩ st.kvs }

mutual
/-- unmarshal.go:86-166 -/
def arrLoop (E : Env) : Nat → Bytes → List V → R (V × Bytes)
  | 0, _, _ => .diverge
  | f+1, s, acc =>
    match skipBlanks s with
    | [] => .err .notArrayValue
    | c :: t =>
      if c = 0x5D then pure (.arr acc, t)
      else if c = 0x2C then arrLoop E f t acc
      else if c = 0x7B then do
        let (v, t) ← objLoop E f t {}
        arrLoop E f t (acc ++ [v])
      else if c = 0x5B then do
        let (v, t) ← arrLoop E f t []
        arrLoop E f t (acc ++ [v])
      else do
        match ← parseScalar E (f+1) c t with
        | some (v, t) => arrLoop E f t (acc ++ [v])
        | none => .err .rawBytesUnrecognized
/-- unmarshal.go:209-348 -/
def objLoop (E : Env) : Nat → Bytes → OSt → R (V × Bytes)
  | 0, _, _ => .diverge
  | f+1, s, st =>
    match skipBlanks s with
    | [] => .err .notObjectValue
    | c :: t =>
      if c = 0x7D then
        match st.key with
        | some _ => .err .notObjectValue
        | none => pure (.obj st.incr st.kvs none, t)
      else if c = 0x2C then
        match st.key with
        | some _ => .err .notObjectValue
        | none => objLoop E f t st
      else if c = 0x3A then
        if st.colon then .err .notObjectValue
        else match st.key with
          | none => .err .notObjectValue
          | some _ => objLoop E f t { st with colon := true }
      else if c = 0x22 then
        match st.key with
        | some k =>
          if !st.colon then .err .notObjectValue
          else do
            let (s, t) ← strLoop (f+1) t []
            objLoop E f t (setMember st k (.str s))
        | none => do
          let (s, t) ← strLoop (f+1) t []
          objLoop E f t { st with key := some s }
      else if c = 0x7B ∨ c = 0x5B ∨ isNumStart c ∨ c = 0x74 ∨ c = 0x66 ∨ c = 0x6E then
        match st.key with
        | none => .err .notObjectValue
        | some k =>
          if !st.colon then .err .notObjectValue
          else if c = 0x7B then do
            let (v, t) ← objLoop E f t {}
            objLoop E f t (setMember st k v)
          else if c = 0x5B then do
            let (v, t) ← arrLoop E f t []
            objLoop E f t (setMember st k v)
          else do
            match ← parseScalar E (f+1) c t with
            | some (v, t) => objLoop E f t (setMember st k v)
            | none => .err .rawBytesUnrecognized
      else .err .rawBytesUnrecognized
end

/-- unmarshal.go:21-65: one value at the head of the text (first character `c`) -/
def parseValue (E : Env) (f : Nat) (c : UInt8) (t : Bytes) : R (V × Bytes) :=
  if c = 0x7B then objLoop E f t {}
  else if c = 0x5B then arrLoop E f t []
  else do
    match ← parseScalar E f c t with
    | some r => pure r
    | none => .err .rawBytesUnrecognized

/-- unmarshal.go:14-76 -/
def unmarshalWithIter (E : Env) (s : Bytes) : R V :=
  match skipBlanks s with
  | [] => .err .rawBytesUnrecognized
  | c :: t => do
    let (v, t) ← parseValue E (s.length + 1) c t
    if skipBlanks t = [] then pure v else .err .rawBytesUnrecognized

/-- jsonvalue.go:238-251 `Unmarshal`; an error comes with a nil value for empty input and with `&V{}` otherwise -/
def unmarshal (E : Env) (b : Bytes) : R V :=
  if b.length = 0 then .err .nilParameter else unmarshalWithIter E b

end JV
