import Verif.Model.Parse
/-!
How much work Unmarshal does. For each function of `Parse` a function that follows the same calls and counts. Only the results of the functions
of `Parse` decide where it goes on.

Counted: every read or write of one byte of the buffer (a byte that is copied counts twice), the bytes of a key when it is hashed for the map,
the bytes that strconv.ParseFloat is given. Not counted: the texts of errors (at most one error is made per call), allocation, and the constant work between
two accesses. `append` and map assignment are taken to be constant (they are, amortised).
-/
namespace JV

/-- byte accesses, and the number of activations of unmarshalArrayWithIterUnknownEnd and unmarshalObjectWithIterUnknownEnd that are on the stack
at the same time at most -/
structure Work where
  ops : Nat := 0
  depth : Nat := 0
deriving DecidableEq, Repr

/-- `n` accesses -/
def Work.tick (n : Nat) : Work := ⟨n, 0⟩
/-- one thing after the other -/
def Work.seq (a b : Work) : Work := ⟨a.ops + b.ops, max a.depth b.depth⟩
/-- a call -/
def Work.call (a : Work) : Work := ⟨a.ops, a.depth + 1⟩

/-- unmarshal.go:652-671 `skipBlanks`: each byte is read once, up to the first that is no blank -/
def skipWork : Bytes → Nat
  | [] => 0
  | c :: t => if isBlank c then skipWork t + 1 else 1

/-- unmarshal.go:472-533 `handleEscapeUnicodeStartWithEnd`, with the writes of `assignASCIICodedRune` (562-591) -/
def uniWork : Bytes → Nat
  | a :: b :: c :: d :: x :: t =>
    4 + match hex4 a b c d with
      | .ok r =>
        if r ≤ 0xD7FF ∨ r ≥ 0xE000 then (runeBytes r).length
        else match t with
          | q :: a :: b :: c :: d :: _ :: _ =>
            if x ≠ 0x5C then 1
            else if q ≠ 0x75 then 2
            else 6 + match hex4 a b c d with
              | .ok ex => match surrogatePair r ex with
                | .ok r => (runeBytes r).length
                | _ => 0
              | _ => 0
          | _ => 0
      | _ => 0
  | _ => 0

/-- unmarshal.go:386-397, the closure `shift`, and `memcpy` (549-560), which is counted even where it has nothing to do -/
def shiftWork (s : Bytes) (n : Nat) : Nat := if s.length < n then 0 else 2 * n

/-- one iteration of unmarshal.go:400-427 with `handleEscapeStart` (433-470); `it[sectEnd] = it[i]` reads again -/
def strStepWork (c : UInt8) (t : Bytes) : Nat :=
  1 + if c = 0x5C then
    match t with
    | [] => 0
    | e :: t =>
      match simpleEsc e with
      | some _ => 2
      | none => if e = 0x75 then 1 + uniWork t else 1
  else if c = 0x22 then 0
  else if c ≤ 0x7F then 2
  else if lead2 c then shiftWork (c :: t) 2
  else if lead3 c then shiftWork (c :: t) 3
  else if lead4 c then shiftWork (c :: t) 4
  else 0

/-- unmarshal.go:381-431 `parseStrFromBytesForwardWithQuote` -/
def strWork : Nat → Bytes → Nat
  | 0, _ => 0
  | _+1, [] => 0
  | f+1, c :: t => strStepWork c t + match strStep c t with
    | .ok (some (_, t)) => strWork f t
    | _ => 0

/-- the loop unmarshal.go:692-764 -/
def numLoopWork (acc : Bytes) (st : NumSt) : Bytes → Nat
  | [] => 0
  | b :: t => 1 + match numStep acc.length st b with
    | .ok (some st) => numLoopWork (acc ++ [b]) st t
    | _ => 0

/-- unmarshal.go:677-796 `parseNumber`: after the loop the first byte is read at most twice, or ParseFloat gets the text -/
def numWork (s : Bytes) : Nat :=
  numLoopWork [] {} s + match numLoop [] {} s with
    | .ok (st, text, _) => if st.floated then (if st.dotGot && !st.intAfterDotGot then 0 else text.length) else 2
    | _ => 0

/-- unmarshal.go:605-649 `parseTrue`, `parseFalse`, `parseNull`: at most the bytes of the literal -/
def litWork (s lit : Bytes) : Nat := if s.length < lit.length then 0 else lit.length

/-- the values other than objects and arrays, in the switches of unmarshal.go:29-61, 118-158, 266-340 -/
def scalarWork (f : Nat) (c : UInt8) (t : Bytes) : Nat :=
  if isNumStart c then numWork (c :: t)
  else if c = 0x22 then strWork f t
  else if c = 0x74 then litWork (c :: t) litTrue
  else if c = 0x66 then litWork (c :: t) litFalse
  else if c = 0x6E then litWork (c :: t) litNull
  else 0

mutual
/-- unmarshal.go:80-169 `unmarshalArrayWithIterUnknownEnd` from after the `[` -/
def arrWork (E : Env) : Nat → Bytes → List V → Work
  | 0, _, _ => {}
  | f+1, s, acc =>
    match skipBlanks s with
    | [] => .tick (skipWork s)
    | c :: t =>
      (Work.tick (skipWork s + 1)).seq
      (if c = 0x5D then {}
      else if c = 0x2C then arrWork E f t acc
      else if c = 0x7B then (objWork E f t {}).call.seq
        (match objLoop E f t {} with
        | .ok (v, t) => arrWork E f t (acc ++ [v])
        | _ => {})
      else if c = 0x5B then (arrWork E f t []).call.seq
        (match arrLoop E f t [] with
        | .ok (v, t) => arrWork E f t (acc ++ [v])
        | _ => {})
      else (Work.tick (scalarWork (f+1) c t)).seq
        (match parseScalar E (f+1) c t with
        | .ok (some (v, t)) => arrWork E f t (acc ++ [v])
        | _ => {}))
/-- unmarshal.go:178-350 `unmarshalObjectWithIterUnknownEnd` from after the `{`; `setToObjectChildren` hashes the key -/
def objWork (E : Env) : Nat → Bytes → OSt → Work
  | 0, _, _ => {}
  | f+1, s, st =>
    match skipBlanks s with
    | [] => .tick (skipWork s)
    | c :: t =>
      (Work.tick (skipWork s + 1)).seq
      (if c = 0x7D then {}
      else if c = 0x2C then
        match st.key with
        | some _ => {}
        | none => objWork E f t st
      else if c = 0x3A then
        if st.colon then {}
        else match st.key with
          | none => {}
          | some _ => objWork E f t { st with colon := true }
      else if c = 0x22 then
        match st.key with
        | some k =>
          if !st.colon then {}
          else (Work.tick (strWork (f+1) t)).seq
            (match strLoop (f+1) t [] with
            | .ok (s, t) => (Work.tick k.length).seq (objWork E f t (setMember st k (.str s)))
            | _ => {})
        | none => (Work.tick (strWork (f+1) t)).seq
            (match strLoop (f+1) t [] with
            | .ok (s, t) => objWork E f t { st with key := some s }
            | _ => {})
      else if c = 0x7B ∨ c = 0x5B ∨ isNumStart c ∨ c = 0x74 ∨ c = 0x66 ∨ c = 0x6E then
        match st.key with
        | none => {}
        | some k =>
          if !st.colon then {}
          else if c = 0x7B then (objWork E f t {}).call.seq
            (match objLoop E f t {} with
            | .ok (v, t) => (Work.tick k.length).seq (objWork E f t (setMember st k v))
            | _ => {})
          else if c = 0x5B then (arrWork E f t []).call.seq
            (match arrLoop E f t [] with
            | .ok (v, t) => (Work.tick k.length).seq (objWork E f t (setMember st k v))
            | _ => {})
          else (Work.tick (scalarWork (f+1) c t)).seq
            (match parseScalar E (f+1) c t with
            | .ok (some (v, t)) => (Work.tick k.length).seq (objWork E f t (setMember st k v))
            | _ => {})
      else {})
end

/-- unmarshal.go:21-65, the dispatch on the first character -/
def valueWork (E : Env) (f : Nat) (c : UInt8) (t : Bytes) : Work :=
  if c = 0x7B then (objWork E f t {}).call
  else if c = 0x5B then (arrWork E f t []).call
  else .tick (scalarWork f c t)

/-- unmarshal.go:14-76 `unmarshalWithIter` -/
def iterWork (E : Env) (s : Bytes) : Work :=
  match skipBlanks s with
  | [] => .tick (skipWork s)
  | c :: t => ((Work.tick (skipWork s + 1)).seq (valueWork E (s.length + 1) c t)).seq
    (match parseValue E (s.length + 1) c t with
    | .ok (_, t) => .tick (skipWork t)
    | _ => {})

/-- jsonvalue.go:238-251 `Unmarshal`: the text is copied, then parsed -/
def unmarshalWork (E : Env) (b : Bytes) : Work :=
  if b.length = 0 then {} else (Work.tick (2 * b.length)).seq (iterWork E b)

/-- jsonvalue.go:271-280 `UnmarshalNoCopy` -/
def noCopyWork (E : Env) (b : Bytes) : Work :=
  if b.length = 0 then {} else iterWork E b

end JV
