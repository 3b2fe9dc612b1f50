import Verif.Model.Value
/-!
Marshal options and the escaping of strings.
-/
namespace JV

/-- sort.go:72-75 `Key` -/
structure Key where
  s : Bytes := []
  i : Nat := 0
deriving DecidableEq, Repr

/-- sort.go:77-79 -/
def intKey (i : Nat) : Key := { i := i }
/-- sort.go:81-83 -/
def stringKey (s : Bytes) : Key := { s := s }
/-- sort.go:95-100, 112-117 -/
def Key.isString (k : Key) : Bool := k.s ≠ []
def Key.isInt (k : Key) : Bool := k.s = []
/-- sort.go:105-110 `Int` -/
def Key.int (k : Key) : Nat := if k.s = [] then k.i else 0
/-- sort.go:88-93 `String` -/
def Key.string (k : Key) : Bytes := if k.s ≠ [] then k.s else natDigits k.i

/-- sort.go:156-159 `ParentInfo`. The slice `KeyPath` is a list here: that `append` may share storage between the paths of
siblings is the subject of Model/KeyPathSlice. -/
structure ParentInfo where
  parent : V
  keyPath : List Key

/-- sort.go:161-174 `newParentInfo` -/
def newParentInfo (v : V) (p : Option ParentInfo) (k : Key) : ParentInfo :=
  match p with
  | none => { parent := v, keyPath := [k] }
  | some p => { parent := v, keyPath := p.keyPath ++ [k] }

/-- sort.go:179 `MarshalLessFunc`, taken as a function of its arguments (no side effects) -/
abbrev LessFn := Option ParentInfo → Bytes → Bytes → V → V → Bool

/-- the functions of conv.go:56-119 stored in the table of ASCII escapes -/
inductive EscFn where
  | nothing | control | doubleQuote | slash | backslash | backspace | vertTab | tab | newLine | ret | leftAngle | rightAngle | and
deriving DecidableEq, Repr

/-- conv.go:64-70, one upper-case hex digit -/
def hexUpper (n : Nat) : UInt8 := if n < 10 then UInt8.ofNat (0x30 + n) else UInt8.ofNat (0x41 + (n - 10))

/-- conv.go:56-119 what the escape functions write for byte `b` -/
def EscFn.run (b : UInt8) : EscFn → Bytes
  | .nothing => [b]
  | .control => [0x5C, 0x75, 0x30, 0x30, hexUpper (b.toNat / 16), hexUpper (b.toNat % 16)]
  | .doubleQuote => [0x5C, 0x22]
  | .slash => [0x5C, 0x2F]
  | .backslash => [0x5C, 0x5C]
  | .backspace => [0x5C, 0x62]
  | .vertTab => [0x5C, 0x66]
  | .tab => [0x5C, 0x74]
  | .newLine => [0x5C, 0x6E]
  | .ret => [0x5C, 0x72]
  | .leftAngle => [0x5C, 0x75, 0x30, 0x30, 0x33, 0x43]
  | .rightAngle => [0x5C, 0x75, 0x30, 0x30, 0x33, 0x45]
  | .and => [0x5C, 0x75, 0x30, 0x30, 0x32, 0x36]

/-- option.go:118-122 the two function fields of `Opt`: the table of 128 ASCII escapes and whether runes above 0x7F are written by
escapeGreaterUnicodeToBuffByUTF8 (otherwise ...ByUTF16) -/
structure Escaper where
  ascii : Nat → EscFn
  utf8 : Bool

/-- option.go:546-564 the bit mask operations -/
def escSet (e : BitVec 8) (m : Nat) : BitVec 8 := e ||| (1#8 <<< m)
def escClear (e : BitVec 8) (m : Nat) : BitVec 8 := e &&& ~~~ (1#8 <<< m)
def escHas (e : BitVec 8) (m : Nat) : Bool := e == escSet e m

/-- option.go:541-545 -/
def escapeUTF8 : Nat := 0
def escapeWithoutHTML : Nat := 1
def escapeIgnoreSlash : Nat := 2

/-- `o.asciiCharEscapingFunc[i] = f` -/
def tblSet (i : Nat) (f : EscFn) (t : Nat → EscFn) : Nat → EscFn := fun j => if j = i then f else t j
/-- option.go:573-577 `iterate` -/
def tblRange (a b : Nat) (f : EscFn) (t : Nat → EscFn) : Nat → EscFn := fun j => if a ≤ j ∧ j ≤ b then f else t j

/-- option.go:579-598 the table before the options are looked at -/
def baseTable : Nat → EscFn :=
  tblSet 0x26 .and <| tblSet 0x3E .rightAngle <| tblSet 0x3C .leftAngle <| tblSet 0x0D .ret <| tblSet 0x0A .newLine <| tblSet 0x09 .tab <|
  tblSet 0x0C .vertTab <| tblSet 0x08 .backspace <| tblSet 0x5C .backslash <| tblSet 0x2F .slash <| tblSet 0x22 .doubleQuote <|
  tblSet 0x7F .control <| tblRange 0x0E 0x1F .control <| tblRange 0x00 0x07 .control <| fun _ => .nothing

/-- option.go:567-617 `parseEscapingFuncs` -/
def parseEscapingFuncs (e : BitVec 8) : Escaper :=
  let t := baseTable
  let t := if escHas e escapeIgnoreSlash then tblSet 0x2F .nothing t else t
  let t := if escHas e escapeWithoutHTML then tblSet 0x26 .nothing (tblSet 0x3E .nothing (tblSet 0x3C .nothing t)) else t
  { ascii := t, utf8 := escHas e escapeUTF8 }

/-- option.go:15-131 `Opt`. `MarshalKeySequence` nil and empty are the same here. `escaper = none`: the function fields are nil.
`keySequence` is the cache made from `MarshalKeySequence` (`none`: nil). `indent.cnt` is part of the marshal state, it is 0 whenever
Marshal starts. The handle types are plain uint8, so any number is possible. -/
structure Opt where
  omitNull : Bool := false
  ignoreOmitempty : Bool := false
  lessFunc : Option LessFn := none
  keySeq : List Bytes := []
  keySeqCache : Option (Bytes → Option Nat) := none
  bySetSeq : Bool := false
  nanType : Nat := 0
  nanToString : Bytes := []
  nanToFloat : BitVec 64 := 0
  infType : Nat := 0
  infPos : Bytes := []
  infNeg : Bytes := []
  infToFloat : BitVec 64 := 0
  escaper : Option Escaper := none
  escProps : BitVec 8 := 0
  indent : Option (Bytes × Bytes) := none

/-- An `Option`: an `Opt{}` value whose exported fields were set (the unexported ones cannot be), or the result of an OptXxx function
(option.go:251-253, 271-273, 287-297, 317-319, 341-343, 360-362, 378-380, 393-403, 420-422, 438-440, 453-467, 488-490, 509-511, 528-530, 624-626) -/
inductive MOpt where
  | opt (omitNull : Bool) (less : Option LessFn) (seq : List Bytes) (nanType : Nat) (nanS : Bytes) (nanF : BitVec 64)
      (infType : Nat) (infP infN : Bytes) (infF : BitVec 64)
  | omitNull (b : Bool)
  | ignoreOmitempty
  | less (f : Option LessFn)
  | keySeq (seq : List Bytes)
  | setSeq
  | nanFloat (f : BitVec 64)
  | nanNull
  | nanString (s : Bytes)
  | infFloat (f : BitVec 64)
  | infNull
  | infString (p n : Bytes)
  | escapeHTML (on : Bool)
  | utf8
  | escapeSlash (on : Bool)
  | indent (pre ind : Bytes)

/-- the `mergeTo` methods, option.go:190-192 (`Opt`), 259-261, 277-279, 303-310, 325-332, 347-352, 368-371, 384-386, 409-412, 428-431, 444-446,
472-476, 494-500, 515-517, 534-540, 630-634 -/
def MOpt.mergeTo (o : Opt) : MOpt → Opt
  | .opt on lf seq nt ns nf it ip ineg inff =>
    { omitNull := on, lessFunc := lf, keySeq := seq, nanType := nt, nanToString := ns, nanToFloat := nf, infType := it, infPos := ip, infNeg := ineg, infToFloat := inff }
  | .omitNull b => { o with omitNull := b }
  | .ignoreOmitempty => { o with ignoreOmitempty := true }
  | .less none => o
  | .less (some f) => { o with lessFunc := some f, keySeq := [], keySeqCache := none, bySetSeq := false }
  | .keySeq seq => { o with lessFunc := none, keySeq := seq, keySeqCache := none, bySetSeq := false }
  | .setSeq => { o with lessFunc := none, keySeq := [], keySeqCache := none, bySetSeq := true }
  | .nanFloat f => { o with nanType := 1, nanToFloat := f }
  | .nanNull => { o with nanType := 2 }
  | .nanString s => { o with nanType := 3, nanToString := s }
  | .infFloat f => { o with infType := 1, infToFloat := f }
  | .infNull => { o with infType := 2 }
  | .infString p n => { o with infType := 3, infPos := p, infNeg := n }
  | .escapeHTML on => { o with escProps := if on then escClear o.escProps escapeWithoutHTML else escSet o.escProps escapeWithoutHTML }
  | .utf8 => { o with escProps := escSet o.escProps escapeUTF8 }
  | .escapeSlash on => { o with escProps := if on then escClear o.escProps escapeIgnoreSlash else escSet o.escProps escapeIgnoreSlash }
  | .indent p i => { o with indent := some (p, i) }

/-- option.go:238-243 `combineOptionsFrom` -/
def Opt.combineFrom (o : Opt) (opts : List MOpt) : Opt :=
  let o := opts.foldl MOpt.mergeTo o
  { o with escaper := some (parseEscapingFuncs o.escProps) }

/-- option.go:222-224 `emptyOptions` -/
def emptyOptions : Opt := {}

/-- option.go:209-213 `SetDefaultMarshalOptions`: the new value of the global `internal.defaultMarshalOption` -/
def setDefault (opts : List MOpt) : Opt := emptyOptions.combineFrom opts

/-- option.go:226-236 `combineOptions` with the global default `d` -/
def combineOptions (d : Opt) (opts : List MOpt) : Opt := d.combineFrom opts

/-! ### strings -/

/-- utf8 continuation byte -/
def isCont (c : UInt8) : Bool := 0x80 ≤ c && c ≤ 0xBF

/-- unicode/utf8: the range the second byte must lie in, given the first byte of a sequence of three or four -/
def secondOK (p c : UInt8) : Bool :=
  if p = 0xE0 then 0xA0 ≤ c && c ≤ 0xBF
  else if p = 0xED then 0x80 ≤ c && c ≤ 0x9F
  else if p = 0xF0 then 0x90 ≤ c && c ≤ 0xBF
  else if p = 0xF4 then 0x80 ≤ c && c ≤ 0x8F
  else isCont c

/-- unicode/utf8.DecodeRuneInString, which `range` over a string uses: the rune and how many bytes it takes; (U+FFFD, 1) for an invalid one -/
def decodeRune (s : Bytes) : Nat × Nat :=
  match s with
  | [] => (0xFFFD, 0)
  | p :: t =>
    if p < 0x80 then (p.toNat, 1)
    else if 0xC2 ≤ p ∧ p ≤ 0xDF then
      match t with
      | c :: _ => if isCont c then ((p.toNat - 0xC0) * 64 + (c.toNat - 0x80), 2) else (0xFFFD, 1)
      | _ => (0xFFFD, 1)
    else if 0xE0 ≤ p ∧ p ≤ 0xEF then
      match t with
      | c :: d :: _ => if secondOK p c && isCont d then ((p.toNat - 0xE0) * 4096 + (c.toNat - 0x80) * 64 + (d.toNat - 0x80), 3) else (0xFFFD, 1)
      | _ => (0xFFFD, 1)
    else if 0xF0 ≤ p ∧ p ≤ 0xF4 then
      match t with
      | c :: d :: e :: _ =>
        if secondOK p c && isCont d && isCont e then
          ((p.toNat - 0xF0) * 262144 + (c.toNat - 0x80) * 4096 + (d.toNat - 0x80) * 64 + (e.toNat - 0x80), 4)
        else (0xFFFD, 1)
      | _ => (0xFFFD, 1)
    else (0xFFFD, 1)

/-- `for _, r := range s`; the fuel is the length of `s` (every rune takes at least one byte) -/
def runesF : Nat → Bytes → List Nat
  | 0, _ => []
  | _+1, [] => []
  | f+1, c :: t => (decodeRune (c :: t)).1 :: runesF f ((c :: t).drop (decodeRune (c :: t)).2)
def runes (s : Bytes) : List Nat := runesF s.length s

/-- `string(r)` for a rune, as bytes -/
def encodeRune (r : Nat) : Bytes :=
  if r ≤ 0x7F then [UInt8.ofNat r]
  else if r ≤ 0x7FF then [UInt8.ofNat (0xC0 + r / 64), UInt8.ofNat (0x80 + r % 64)]
  else if 0xD800 ≤ r ∧ r ≤ 0xDFFF then [0xEF, 0xBF, 0xBD]
  else if r ≤ 0xFFFF then [UInt8.ofNat (0xE0 + r / 4096), UInt8.ofNat (0x80 + r / 64 % 64), UInt8.ofNat (0x80 + r % 64)]
  else if r ≤ 0x10FFFF then [UInt8.ofNat (0xF0 + r / 262144), UInt8.ofNat (0x80 + r / 4096 % 64), UInt8.ofNat (0x80 + r / 64 % 64), UInt8.ofNat (0x80 + r % 64)]
  else [0xEF, 0xBF, 0xBD]

/-- `fmt.Sprintf("\\u%04X", r)` for `r < 65536` -/
def fmtU4 (r : Nat) : Bytes := [0x5C, 0x75, hexUpper (r / 4096 % 16), hexUpper (r / 256 % 16), hexUpper (r / 16 % 16), hexUpper (r % 16)]

/-- conv.go:21-38 `escapeGreaterUnicodeToBuffByUTF16` -/
def escUTF16 (r : Nat) : Bytes :=
  if r ≤ 0xFFFF then fmtU4 r
  else
    let r := r - 0x10000
    fmtU4 (((r &&& 0xFFC00) >>> 10) + 0xD800) ++ fmtU4 ((r &&& 0x003FF) + 0xDC00)

/-- conv.go:40-54 `escapeGreaterUnicodeToBuffByUTF8` -/
def escUTF8 (r : Nat) : Bytes := if r = 0x2028 ∨ r = 0x2029 then escUTF16 r else encodeRune r

/-- conv.go:127-132 the body of the loop -/
def escRune (t : Escaper) (r : Nat) : Bytes :=
  if r ≤ 0x7F then (t.ascii r).run (UInt8.ofNat r)
  else if t.utf8 then escUTF8 r else escUTF16 r

/-- conv.go:125-134 `escapeStringToBuff`: the bytes written; calling a nil function panics -/
def escapeString (t : Option Escaper) (s : Bytes) : R Bytes :=
  match t with
  | some t => .ok ((runes s).flatMap (escRune t))
  | none => if runes s = [] then .ok [] else .panic

/-- sort.go:140-147 one element of `KeyPath.String` with the global default options `d` -/
def keyText (d : Opt) (k : Key) : R Bytes :=
  if k.isInt then .ok (natDigits k.int)
  else (escapeString d.escaper k.string).bind fun s => .ok (0x22 :: (s ++ [0x22]))
/-- sort.go:136-149 the loop -/
def keyPathBody (d : Opt) : Bool → List Key → R Bytes
  | _, [] => .ok []
  | first, k :: ks => do
    let body ← keyText d k
    let rest ← keyPathBody d false ks
    pure ((if first then [] else [0x20]) ++ body ++ rest)
/-- sort.go:127-152 `KeyPath.String` -/
def keyPathString (d : Opt) (p : List Key) : R Bytes := do
  let s ← keyPathBody d true p
  pure (0x5B :: s ++ [0x5D])

end JV
