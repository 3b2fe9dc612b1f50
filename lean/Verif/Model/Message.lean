import Verif.Model.Parse
/-!
The parser once more, now with what its error messages say. Each function is that of `Parse` with the position of the text still to be read
(`offset`, `i` or `idx` of the code) as an argument of its own, and an error carries its message: which format string it was made with, and the values
given to it. `Proofs/Message.lean` shows that forgetting the messages and positions gives `Parse`.

Simplified: the rendering of the format strings by package fmt, and the text of the error of strconv.ParseFloat that is wrapped at unmarshal.go:835
(it depends on the text of the number only, which the message here carries).
-/
namespace JV

/-- what a message about a number says, behind `parsing number at index %d: ` (unmarshal.go:798-800) -/
inductive NumMsg where
  /-- `unexpected zero`, unmarshal.go:708, 712 -/
  | zero
  /-- `unexpected exponent symbol`, unmarshal.go:726 -/
  | exponent
  /-- `unexpected +`, unmarshal.go:734 -/
  | plus
  /-- `unexpected negative symbol`, unmarshal.go:746 -/
  | minus
  /-- `unexpected dot symbol`, unmarshal.go:754 -/
  | dot
  /-- `integer after dot missing`, unmarshal.go:768 -/
  | afterDot
  /-- `non-zero integer should not start with zero`, unmarshal.go:774 -/
  | leadingZero
  /-- `invalid number format`, unmarshal.go:783 -/
  | format
  /-- the error of strconv.ParseFloat for this text, unmarshal.go:835 -/
  | float (text : Bytes)
  /-- `value too large`, unmarshal.go:854, 857 -/
  | tooLarge
  /-- `absolute value too large`, unmarshal.go:877, 880 -/
  | absTooLarge
deriving DecidableEq, Repr

/-- the errors made by Unmarshal, with the values in their messages; `p` is what stands for the last `%d` -/
inductive Msg where
  /-- ErrNilParameter itself, jsonvalue.go:241 -/
  | nilParameter
  /-- `cannot find any symbol characters found`, unmarshal.go:18 -/
  | noSymbol
  /-- `invalid character \u%04X at Position %d`, unmarshal.go:64, 161, 343 -/
  | badChar (c : UInt8) (p : Nat)
  /-- `unnecessary trailing data remains at Position %d`, unmarshal.go:72 -/
  | trailing (p : Nat)
  /-- `cannot find ']'`, unmarshal.go:91, 165 -/
  | noBracket
  /-- `cannot find '}'`, unmarshal.go:213, 348 -/
  | noBrace
  /-- `missing key for another value at Position %d`, unmarshal.go:187-189 -/
  | noKey (p : Nat)
  /-- `missing colon for key at Position %d`, unmarshal.go:192-194 -/
  | noColon (p : Nat)
  /-- `missing value for key '%s' at Position %d`, unmarshal.go:201-204, 283-285 -/
  | noValue (k : Bytes) (p : Nat)
  /-- `duplicate colon at Position %d`, unmarshal.go:233 -/
  | dupColon (p : Nat)
  /-- `expect at least %d remaining bytes, but got %d at Position %d`, unmarshal.go:388-391 -/
  | shortRune (least got p : Nat)
  /-- `illegal UTF8 string at Position %d`, unmarshal.go:422 -/
  | badUTF8 (p : Nat)
  /-- `ending double quote of a string is not found`, unmarshal.go:429 -/
  | noQuote
  /-- `escape symbol not followed by another character`, unmarshal.go:435, 474 -/
  | escEnd
  /-- `unrecognized character 0x%02X after escape symbol`, unmarshal.go:441 -/
  | badEscape (c : UInt8)
  /-- `invalid unicode value character: %c`, unmarshal.go:545 -/
  | badHex (c : UInt8)
  /-- `insufficient UTF-16 data at offset %d`, unmarshal.go:498 -/
  | utf16Short (p : Nat)
  /-- `expect unicode escape character at position %d but not`, unmarshal.go:501 -/
  | utf16Escape (p : Nat)
  /-- `expect second UTF-16 encoding but got 0x04%X at position %d`, unmarshal.go:514-517, 521-524 -/
  | utf16Second (r p : Nat)
  /-- `insufficient character from Position %d`, unmarshal.go:607, 622, 638; `e` is the wrapped error -/
  | litShort (e : Err) (p : Nat)
  /-- `not 'true' at Position %d`, unmarshal.go:617 -/
  | notTrue (p : Nat)
  /-- `not 'false' at Position %d`, unmarshal.go:633 -/
  | notFalse (p : Nat)
  /-- `not 'null' at Position %d`, unmarshal.go:648; it wraps ErrNotValidBoolValue -/
  | notNull (p : Nat)
  /-- `parsing number at index %d: ` and the rest, unmarshal.go:798-800 -/
  | num (k : NumMsg) (p : Nat)
deriving DecidableEq, Repr

/-- the error that is wrapped (`%w`), or `other` where there is none -/
def Msg.err : Msg → Err
  | .nilParameter => .nilParameter
  | .noSymbol | .badChar _ _ | .trailing _ => .rawBytesUnrecognized
  | .noBracket => .notArrayValue
  | .noBrace | .noKey _ | .noColon _ | .noValue _ _ | .dupColon _ => .notObjectValue
  | .shortRune _ _ _ | .badUTF8 _ | .utf16Second _ _ => .illegalString
  | .litShort e _ => e
  | .notTrue _ | .notFalse _ | .notNull _ => .notValidBoolValue
  | .noQuote | .escEnd | .badEscape _ | .badHex _ | .utf16Short _ | .utf16Escape _ | .num _ _ => .other

/-- `R` with messages for errors -/
inductive RM (α : Type) where
  | ok (a : α)
  | err (m : Msg)
  | panic
  | diverge
deriving Repr, DecidableEq

namespace RM
variable {α β : Type}

/-- Sequencing: anything but a normal return is passed on. -/
def bind (x : RM α) (f : α → RM β) : RM β :=
  match x with
  | ok a => f a
  | err m => err m
  | panic => panic
  | diverge => diverge

instance : Monad RM where
  pure := ok
  bind := bind

@[simp] theorem pure_eq (a : α) : (pure a : RM α) = ok a := rfl
@[simp] theorem bind_ok (a : α) (f : α → RM β) : (ok a >>= f) = f a := rfl
@[simp] theorem bind_err (m : Msg) (f : α → RM β) : ((err m : RM α) >>= f) = err m := rfl
@[simp] theorem bind_panic (f : α → RM β) : ((panic : RM α) >>= f) = panic := rfl
@[simp] theorem bind_diverge (f : α → RM β) : ((diverge : RM α) >>= f) = diverge := rfl
end RM

/-- a computation of `Parse` whose errors, if any, have the message `m` -/
def R.withMsg {α : Type} (m : Msg) : R α → RM α
  | .ok a => .ok a
  | .err _ => .err m
  | .panic => .panic
  | .diverge => .diverge

/-- unmarshal.go:652-671 -/
def skipBlanksM (p : Nat) : Bytes → Nat × Bytes
  | [] => (p, [])
  | c :: t => if isBlank c then skipBlanksM (p + 1) t else (p, c :: t)

/-- unmarshal.go:477-480, 504-507 with `chrToHex` (535-547), which overwrites the error of the digit before -/
def hex4M (a b c d : UInt8) : RM Nat :=
  match chrToHex a, chrToHex b, chrToHex c, chrToHex d with
  | some x3, some x2, some x1, some x0 => .ok ((x3 <<< 12) + (x2 <<< 8) + (x1 <<< 4) + x0)
  | _, _, _, none => .err (.badHex d)
  | _, _, none, _ => .err (.badHex c)
  | _, none, _, _ => .err (.badHex b)
  | none, _, _, _ => .err (.badHex a)

/-- unmarshal.go:472-533; the text is what follows `\u`, `p` is the position of the backslash -/
def escUnicodeM (p : Nat) : Bytes → RM (Bytes × Nat × Bytes)
  | a :: b :: c :: d :: x :: t => do
    let r ← hex4M a b c d
    if r ≤ 0xD7FF ∨ r ≥ 0xE000 then pure (runeBytes r, p + 6, x :: t)
    else match t with
      | q :: a :: b :: c :: d :: y :: t =>
        if x ≠ 0x5C then .err (.utf16Escape (p + 6))
        else if q ≠ 0x75 then .err (.utf16Escape (p + 6))
        else do
          let ex ← hex4M a b c d
          let r ← (surrogatePair r ex).withMsg (.utf16Second r (p + 8))
          pure (runeBytes r, p + 12, y :: t)
      | _ => .err (.utf16Short p)
  | _ => .err .escEnd

/-- unmarshal.go:386-397; the numbers of bytes that are left and that are wanted are given to the message in this order -/
def shiftM (p : Nat) (s : Bytes) (n : Nat) : RM (Bytes × Nat × Bytes) :=
  if s.length < n then .err (.shortRune s.length n p) else .ok (s.take n, p + n, s.drop n)

/-- unmarshal.go:400-427 with 433-470; `p` is the position of `c` -/
def strStepM (p : Nat) (c : UInt8) (t : Bytes) : RM (Option (Bytes × Nat × Bytes)) :=
  if c = 0x5C then
    match t with
    | [] => .err .escEnd
    | e :: t =>
      match simpleEsc e with
      | some b => pure (some ([b], p + 2, t))
      | none => if e = 0x75 then do return some (← escUnicodeM p t) else .err (.badEscape e)
  else if c = 0x22 then pure none
  else if c ≤ 0x7F then pure (some ([c], p + 1, t))
  else if lead2 c then do return some (← shiftM p (c :: t) 2)
  else if lead3 c then do return some (← shiftM p (c :: t) 3)
  else if lead4 c then do return some (← shiftM p (c :: t) 4)
  else .err (.badUTF8 p)

/-- unmarshal.go:381-431 from after the opening quote -/
def strLoopM : Nat → Nat → Bytes → Bytes → RM (Bytes × Nat × Bytes)
  | 0, _, _, _ => .diverge
  | _+1, _, [], _ => .err .noQuote
  | f+1, p, c :: t, acc => do
    match ← strStepM p c t with
    | none => pure (acc, p + 1, t)
    | some (bs, p, t) => strLoopM f p t (acc ++ bs)

/-- what numStep objects to at this byte, unmarshal.go:708, 712, 726, 734, 746, 754 -/
def numFault (b : UInt8) : NumMsg :=
  if b = 0x30 then .zero
  else if b = 0x65 ∨ b = 0x45 then .exponent
  else if b = 0x2B then .plus
  else if b = 0x2D then .minus
  else .dot

/-- unmarshal.go:692-764; `p` is the position of the number, that of the byte looked at is `p + acc.length` -/
def numLoopM (p : Nat) (acc : Bytes) (st : NumSt) : Bytes → RM (NumSt × Bytes × Bytes)
  | [] => .ok (st, acc, [])
  | b :: t => do
    match ← (numStep acc.length st b).withMsg (.num (numFault b) (p + acc.length)) with
    | none => pure (st, acc, b :: t)
    | some st => numLoopM p (acc ++ [b]) st t

/-- unmarshal.go:677-796; number, its text, the position after it, the rest -/
def parseNumberM (E : Env) (p : Nat) (s : Bytes) : RM (Num × Bytes × Nat × Bytes) := do
  let (st, text, rest) ← numLoopM p [] {} s
  if st.floated then
    if st.dotGot && !st.intAfterDotGot then .err (.num .afterDot p)
    else do
      let n ← (floatResult E text).withMsg (.num (.float text) p)
      pure (n, text, p + text.length, rest)
  else do
    let firstB ← (rd s 0).withMsg .nilParameter
    if st.integer > 0#64 ∧ firstB = 0x30 then .err (.num .leadingZero p)
    else if text.length = 1 ∧ ¬ (isDigit firstB) then .err (.num .format p)
    else do
      let n ← (intResult E st.negative text.length st.integer).withMsg (.num (if st.negative then .absTooLarge else .tooLarge) p)
      pure (n, text, p + text.length, rest)

/-- unmarshal.go:605-649 -/
def parseLitM (p : Nat) (s lit : Bytes) (short bad : Msg) : RM (Nat × Bytes) :=
  if s.length < lit.length then .err short
  else if s.take lit.length = lit then .ok (p + lit.length, s.drop lit.length) else .err bad

/-- unmarshal.go:29-61; `c :: t` is the text -/
def parseScalarM (E : Env) (f p : Nat) (c : UInt8) (t : Bytes) : RM (Option (V × Nat × Bytes)) :=
  if isNumStart c then do
    let (n, text, p, rest) ← parseNumberM E p (c :: t)
    pure (some (.num text n, p, rest))
  else if c = 0x22 then do
    let (s, p, rest) ← strLoopM f (p + 1) t []
    pure (some (.str s, p, rest))
  else if c = 0x74 then do
    let (p, rest) ← parseLitM p (c :: t) litTrue (.litShort .notValidBoolValue p) (.notTrue p)
    pure (some (.bool true, p, rest))
  else if c = 0x66 then do
    let (p, rest) ← parseLitM p (c :: t) litFalse (.litShort .notValidBoolValue p) (.notFalse p)
    pure (some (.bool false, p, rest))
  else if c = 0x6E then do
    let (p, rest) ← parseLitM p (c :: t) litNull (.litShort .notValidNullValue p) (.notNull p)
    pure (some (.null, p, rest))
  else pure none

mutual
/-- unmarshal.go:86-166 -/
def arrLoopM (E : Env) : Nat → Nat → Bytes → List V → RM (V × Nat × Bytes)
  | 0, _, _, _ => .diverge
  | f+1, p, s, acc =>
    match skipBlanksM p s with
    | (_, []) => .err .noBracket
    | (p, c :: t) =>
      if c = 0x5D then pure (.arr acc, p + 1, t)
      else if c = 0x2C then arrLoopM E f (p + 1) t acc
      else if c = 0x7B then do
        let (v, p, t) ← objLoopM E f (p + 1) t {} 0
        arrLoopM E f p t (acc ++ [v])
      else if c = 0x5B then do
        let (v, p, t) ← arrLoopM E f (p + 1) t []
        arrLoopM E f p t (acc ++ [v])
      else do
        match ← parseScalarM E (f+1) p c t with
        | some (v, p, t) => arrLoopM E f p t (acc ++ [v])
        | none => .err (.badChar c p)
/-- unmarshal.go:176-349; `ks` is `keyStart` -/
def objLoopM (E : Env) : Nat → Nat → Bytes → OSt → Nat → RM (V × Nat × Bytes)
  | 0, _, _, _, _ => .diverge
  | f+1, p, s, st, ks =>
    match skipBlanksM p s with
    | (_, []) => .err .noBrace
    | (p, c :: t) =>
      if c = 0x7D then
        match st.key with
        | some k => .err (.noValue k ks)
        | none => pure (.obj st.incr st.kvs none, p + 1, t)
      else if c = 0x2C then
        match st.key with
        | some k => .err (.noValue k ks)
        | none => objLoopM E f (p + 1) t st ks
      else if c = 0x3A then
        if st.colon then .err (.dupColon ks)
        else match st.key with
          | none => .err (.noKey p)
          | some _ => objLoopM E f (p + 1) t { st with colon := true } ks
      else if c = 0x22 then
        match st.key with
        | some k =>
          if !st.colon then .err (.noValue k ks)
          else do
            let (s, p, t) ← strLoopM (f+1) (p + 1) t []
            objLoopM E f p t (setMember st k (.str s)) ks
        | none => do
          let (s, q, t) ← strLoopM (f+1) (p + 1) t []
          objLoopM E f q t { st with key := some s } (p + 1)
      else if c = 0x7B ∨ c = 0x5B ∨ isNumStart c ∨ c = 0x74 ∨ c = 0x66 ∨ c = 0x6E then
        match st.key with
        | none => .err (.noKey p)
        | some k =>
          if !st.colon then .err (.noColon p)
          else if c = 0x7B then do
            let (v, p, t) ← objLoopM E f (p + 1) t {} 0
            objLoopM E f p t (setMember st k v) ks
          else if c = 0x5B then do
            let (v, p, t) ← arrLoopM E f (p + 1) t []
            objLoopM E f p t (setMember st k v) ks
          else do
            match ← parseScalarM E (f+1) p c t with
            | some (v, p, t) => objLoopM E f p t (setMember st k v) ks
            | none => .err (.badChar c p)
      else .err (.badChar c p)
end

/-- unmarshal.go:21-65: one value at the head of the text (first character `c`) -/
def parseValueM (E : Env) (f p : Nat) (c : UInt8) (t : Bytes) : RM (V × Nat × Bytes) :=
  if c = 0x7B then objLoopM E f (p + 1) t {} 0
  else if c = 0x5B then arrLoopM E f (p + 1) t []
  else do
    match ← parseScalarM E f p c t with
    | some r => pure r
    | none => .err (.badChar c p)

/-- unmarshal.go:14-76 -/
def unmarshalWithIterM (E : Env) (s : Bytes) : RM V :=
  match skipBlanksM 0 s with
  | (_, []) => .err .noSymbol
  | (p, c :: t) => do
    let (v, p, t) ← parseValueM E (s.length + 1) p c t
    match skipBlanksM p t with
    | (_, []) => pure v
    | (p, _ :: _) => .err (.trailing p)

/-- jsonvalue.go:238-251 `Unmarshal` with its messages -/
def unmarshalM (E : Env) (b : Bytes) : RM V :=
  if b.length = 0 then .err .nilParameter else unmarshalWithIterM E b

end JV
