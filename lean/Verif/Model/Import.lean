import Verif.Model.Base64
import Verif.Model.Iterate
import Verif.Model.Api
/-!
import_export.go: Import, New. A Go value is given by what package reflect shows of it.
-/
namespace JV

/-- a map key of one of the kinds Import accepts -/
inductive GoKey where
  | str (s : Bytes)
  | int (i : BitVec 64)
  | uint (u : BitVec 64)
deriving DecidableEq, Repr

mutual
/-- A Go value as reflect shows it. Pointers lead to values (a cyclic value cannot be written here: see Model/ImportGraph).
* `invalid`: `reflect.ValueOf(nil)`, what is inside a nil interface
* `int`, `uint`: all integer kinds; `flt w f`: `w` says float32, `f` the bits of `float64(f)`
* `bytes named b`: a slice whose elements are bytes, `named` when its type is not `[]byte` itself, `none` when it is nil
* `arr`, `nilSlice`, `slice`: the other arrays and slices
* `map kvs`: the entries in the order of `MapKeys`; `badMap`: a map whose keys are no strings and no integers
* `nilPtr t`: `t` is the zero value of the type pointed to
* `iface x`: a value of an interface type
* `jv v`: a `*V`, also inside an interface. A `**V` is `marsh` (import_export.go:160-163 finds the method on the type pointed to, and the check for
  deepCopier at 70 looks at the `**V`), and so is a `V` by value; `out` is then what MarshalJSON gives. So `ptr (jv v)` stands for no Go value.
* `marsh empty out`: a value whose type (or pointer type) implements json.Marshaler; `out` is what MarshalJSON returns (`none`: an error),
  `empty` whether encoding/json counts the Go value itself as empty; `text empty out`: the same for encoding.TextMarshaler
* `nilMarsh`: a nil pointer whose type implements one of them
* `unsupported`: channels, functions, complex numbers, unsafe pointers
Not covered: interface types that contain MarshalJSON, and values whose pointer type only implements Marshaler at addressable places. -/
inductive GoVal where
  | invalid
  | bool (b : Bool)
  | int (i : BitVec 64)
  | uint (u : BitVec 64)
  | flt (w : Bool) (f : BitVec 64)
  | str (s : Bytes)
  | bytes (named : Bool) (b : Option Bytes)
  | arr (xs : List GoVal)
  | nilSlice
  | slice (xs : List GoVal)
  | nilMap
  | map (kvs : List GoPair)
  | badMap
  | nilPtr (t : GoVal)
  | ptr (x : GoVal)
  | iface (x : GoVal)
  | struct (fs : List GoField)
  | jv (v : V)
  | marsh (empty : Bool) (out : Option Bytes)
  | text (empty : Bool) (out : Option Bytes)
  | nilMarsh
  | unsupported
/-- a map entry -/
inductive GoPair where
  | mk (k : GoKey) (v : GoVal)
/-- a struct field: name, the value of its `json` tag (empty: no tag), embedded, exported, value -/
inductive GoField where
  | mk (name tag : Bytes) (anon exported : Bool) (v : GoVal)
end

/-- import_export.go:45-55 `type ext` -/
structure Ext where
  omitempty : Bool := false
  toString : Bool := false
  isPrivate : Bool := false
  ignoreOmitempty : Bool := false

/-- import_export.go:57-62 `shouldOmitEmpty` -/
def Ext.omit (ex : Ext) : Bool := if ex.ignoreOmitempty then false else ex.omitempty || ex.isPrivate

/-- the read-only flag of a reflect.Value: not set, flagEmbedRO, flagStickyRO -/
inductive RO where
  | no | embed | sticky
deriving DecidableEq, Repr

/-- `flag.ro()`, for elements of a slice, array, map or interface -/
def RO.elem : RO → RO
  | .no => .no
  | _ => .sticky

/-- the flag of a field, reflect.Value.Field -/
def RO.field (ro : RO) (anon exported : Bool) : RO :=
  match ro with
  | .sticky => .sticky
  | _ => if exported then .no else if anon then .embed else .sticky

/-- `strings.Split(s, ",")` -/
def splitComma : Bytes → List Bytes
  | [] => [[]]
  | c :: s =>
    if c = 0x2C then [] :: splitComma s
    else match splitComma s with
      | [] => [[c]]
      | p :: ps => (c :: p) :: ps

def optOmitempty : Bytes := [0x6F, 0x6D, 0x69, 0x74, 0x65, 0x6D, 0x70, 0x74, 0x79]
def optString : Bytes := [0x73, 0x74, 0x72, 0x69, 0x6E, 0x67]

/-- import_export.go:558-586 `readFieldTag`: the options are compared before they are trimmed -/
def readFieldTag (E : Env) (name tag : Bytes) (pex : Ext) : Bytes × Ext :=
  if tag = [] then (name, { ignoreOmitempty := pex.ignoreOmitempty })
  else
    let parts := splitComma tag
    let field := E.trimSpace (parts.headD [])
    (if field = [] then name else field,
      { omitempty := parts.tail.contains optOmitempty, toString := parts.tail.contains optString, ignoreOmitempty := pex.ignoreOmitempty })

/-- import_export.go:587-599 `readAnonymousFieldTag`; a Go name is never empty -/
def readAnonymousFieldTag (E : Env) (name tag : Bytes) (pex : Ext) : Bytes × Ext :=
  let (field, ex) := readFieldTag E name tag pex
  let up := match name with
    | c :: _ => decide (0x41 ≤ c.toNat ∧ c.toNat ≤ 0x5A)
    | [] => false
  (field, { ex with isPrivate := !up })

/-- `strconv.FormatFloat` as new.go:176-185 and 202-211 call it: format `e` below 1e-6 and from 1e21 on, `f` in between, shortest form; the
first argument says float32. For a number that is not finite: the text that `MustMarshalString` gives for it with the default options, which is
empty unless SetDefaultMarshalOptions was called (used in `floatString` only). -/
abbrev FloatText := Bool → BitVec 64 → Bytes

/-- new.go:176-185 `NewFloat64`, 202-211 `NewFloat32` -/
def newFloat (E : Env) (F : FloatText) (w : Bool) (f : BitVec 64) : V := newFloat64f E (F w f) f

/-- import_export.go:292-306: `NewFloat64(f).MustMarshalString()`; for a finite number the text that NewFloat64 gave it -/
def floatString (F : FloatText) (w : Bool) (f : BitVec 64) : Bytes := F w f

/-- `fmt.Sprint(b)` -/
def boolText (b : Bool) : Bytes := if b then [0x74, 0x72, 0x75, 0x65] else [0x66, 0x61, 0x6C, 0x73, 0x65]

/-- import_export.go:381-396: the key function of the three map parsers -/
def GoKey.text : GoKey → Bytes
  | .str s => s
  | .int i => fmtInt i
  | .uint u => fmtUint u

/-- import_export.go:219-244: a marshaler's value that is left out with omitempty -/
def emptyV : V → Bool
  | .str s => s.isEmpty
  | .num _ n => !fltNonzero n.f64
  | .arr xs => xs.isEmpty
  | .obj _ kvs _ => kvs.isEmpty
  | .bool b => !b
  | _ => true

/-- import_export.go:201-246 `parseJSONMarshaler` for a value that is there -/
def parseJSONMarshaler (E : Env) (ex : Ext) (out : Option Bytes) : R V :=
  match out with
  | none => .err .other
  | some b =>
    match goUnmarshal E b with
    | .ok (_, v, none) => .ok (if ex.omit && emptyV v then .nilp else v)
    | .ok (_, _, some _) => .err .other
    | .err e => .err e
    | .panic => .panic
    | .diverge => .diverge

/-- the object after `res.MustSet(c).At(k)`; an error is dropped -/
def mustSetKey (E : Env) (res c : V) (k : Bytes) : R V :=
  match set E res { c := c } [.str k] with
  | (res, .ok _) => .ok res
  | (res, .err _) => .ok res
  | (_, .panic) => .panic
  | (_, .diverge) => .diverge

/-- the array after `res.MustAppend(c).InTheEnd()` -/
def mustAppend (E : Env) (res c : V) : R V :=
  match append E false res { c := c } [] with
  | (res, .ok _) => .ok res
  | (res, .err _) => .ok res
  | (_, .panic) => .panic
  | (_, .diverge) => .diverge

/-- import_export.go:453-456: the loop over the members a field gives -/
def mustSetAll (E : Env) (res : V) : List (Bytes × V) → R V
  | [] => .ok res
  | (k, c) :: l => do mustSetAll E (← mustSetKey E res c k) l

mutual
/-- jsonvalue.go:496-526 `deepCopy`, the copy as a tree (what it shares with the original is the subject of the heap model) -/
def deepCopy : V → V
  | .nilp => .notExist
  | .arr xs => .arr (deepCopyL xs)
  | .obj n kvs _ => .obj n (deepCopyE kvs) none
  | v => v
termination_by structural v => v
/-- jsonvalue.go:141-146 -/
def deepCopyL : List V → List V
  | [] => []
  | x :: xs => deepCopy x :: deepCopyL xs
termination_by structural xs => xs
/-- jsonvalue.go:149-157 -/
def deepCopyE : List Ent → List Ent
  | [] => []
  | e :: es => deepCopyEnt e :: deepCopyE es
termination_by structural es => es
/-- jsonvalue.go:152-155 -/
def deepCopyEnt : Ent → Ent
  | .mk k i v => .mk k i (deepCopy v)
termination_by structural e => e
end

/-- import_export.go:193-199 `parseJSONValueDeepCopier` -/
def parseDeepCopier : V → V
  | .nilp => .nilp
  | v => deepCopy v

/-- import_export.go:495 `child != nil` -/
def isNil : V → Bool
  | .nilp => true
  | _ => false

/-- the members of an object in the order of RangeObjectsBySetSequence, import_export.go:547-552 -/
def membersBySet (S : SortFn) (v : V) : R (List (Bytes × V)) :=
  rangeObjectsBySet S v (some fun s k c => (s ++ [(k, c)], true)) []

/-- `fv.Kind() == reflect.Ptr && fv.IsNil()` -/
def isNilPtr : GoVal → Bool
  | .nilPtr _ => true
  | .nilMarsh => true
  | .jv .nilp => true
  | _ => false

/-- import_export.go:537-554: what an embedded field gives -/
def anonMembers (S : SortFn) (name : Bytes) (ex : Ext) (child : V) : R (List (Bytes × V)) :=
  match child with
  | .nilp => .ok []
  | .notExist => .ok []
  | .obj n kvs low => membersBySet S (.obj n kvs low)
  | c => if ex.isPrivate then .ok [] else .ok [(name, c)]

/-- import_export.go:333-346: elements of a named byte slice, each through parseUintValue -/
def byteElems (E : Env) (ex : Ext) (b : Bytes) : List V :=
  b.map fun c =>
    let u := BitVec.ofNat 64 c.toNat
    if u = 0 && ex.omit then .nilp else if ex.toString then .str (fmtUint u) else newUint64 E u

mutual
/-- import_export.go:65-139 `validateValAndReturnParser` followed by the parser it returns: 142-191 `checkAndParseMarshaler` (which data are
`marsh` and `text`), 247-264 `parseTextMarshaler`, 266-328 the scalars, 400-411 `parsePtrValue`, 413-422 `parseSliceValue`, 424-431 `parseBytesValue`,
433-440 `parseStringValue`. A nil `*V` with a nil error is `nilp`. -/
def importVal (E : Env) (S : SortFn) (F : FloatText) (ex : Ext) (ro : RO) : GoVal → R V
  | .invalid => .ok (if ex.omit then .nilp else .null)
  | .bool b => .ok (if !b && ex.omit then .nilp else if ex.toString then .str (boolText b) else .bool b)
  | .int i => .ok (if i = 0 && ex.omit then .nilp else if ex.toString then .str (fmtInt i) else newInt64 E i)
  | .uint u => .ok (if u = 0 && ex.omit then .nilp else if ex.toString then .str (fmtUint u) else newUint64 E u)
  | .flt w f => .ok (if !fltNonzero f && ex.omit then .nilp else if ex.toString then .str (floatString F w f) else newFloat E F w f)
  | .str s => .ok (if s.isEmpty && ex.omit then .nilp else .str s)
  | .bytes false b =>
    if ro = .no then .ok (if (b.getD []).isEmpty && ex.omit then .nilp else newBytes (b.getD [])) else .panic
  | .bytes true b =>
    if (b.getD []).isEmpty then .ok (if ex.omit then .nilp else newArray)
    else .ok (.arr (byteElems E { ex with omitempty := false } (b.getD [])))
  | .arr xs => importList E S F { ex with omitempty := false } ro.elem newArray xs
  | .nilSlice => .ok (if ex.omit then .nilp else newArray)
  | .slice xs =>
    if xs.isEmpty then .ok (if ex.omit then .nilp else newArray)
    else importList E S F { ex with omitempty := false } ro.elem newArray xs
  | .nilMap => .ok (if ex.omit then .nilp else .null)
  | .map kvs =>
    if kvs.isEmpty then .ok (if ex.omit then .nilp else newObject)
    else importPairs E S F ex ro.elem newObject kvs
  | .badMap => .err .other
  | .nilPtr _ => .ok (if ex.omit then .nilp else .null)
  | .ptr x => importVal E S F ex ro x
  | .iface x => importVal E S F ex ro.elem x
  | .struct fs => importFields E S F ex ro newObject fs
  | .jv v => if ro = .no then .ok (parseDeepCopier v) else .panic
  | .marsh _ out => if ro = .no then parseJSONMarshaler E ex out else .panic
  | .text _ out =>
    if ro = .no then
      match out with
      | none => .err .other
      | some b => .ok (if b.isEmpty && ex.omit then .nilp else .str b)
    else .panic
  | .nilMarsh => if ro = .no then .ok .nilp else .panic
  | .unsupported => .err .other
termination_by structural x => x
/-- import_export.go:330-349 `parseArrayValue`, the loop -/
def importList (E : Env) (S : SortFn) (F : FloatText) (ex : Ext) (ro : RO) (res : V) : List GoVal → R V
  | [] => .ok res
  | x :: xs =>
    match importVal E S F ex ro x with
    | .ok c =>
      match mustAppend E res c with
      | .ok res => importList E S F ex ro res xs
      | .err e => .err e
      | .panic => .panic
      | .diverge => .diverge
    | .err e => .err e
    | .panic => .panic
    | .diverge => .diverge
termination_by structural xs => xs
/-- import_export.go:365-378 `parseMapValue`, the loop -/
def importPairs (E : Env) (S : SortFn) (F : FloatText) (ex : Ext) (ro : RO) (res : V) : List GoPair → R V
  | [] => .ok res
  | p :: ps =>
    match importPair E S F ex ro p with
    | .ok (k, c) =>
      match mustSetKey E res c k with
      | .ok res => importPairs E S F ex ro res ps
      | .err e => .err e
      | .panic => .panic
      | .diverge => .diverge
    | .err e => .err e
    | .panic => .panic
    | .diverge => .diverge
termination_by structural ps => ps
/-- import_export.go:366-374, one entry: key text and child -/
def importPair (E : Env) (S : SortFn) (F : FloatText) (ex : Ext) (ro : RO) : GoPair → R (Bytes × V)
  | .mk k x => do
    let c ← importVal E S F ex ro x
    pure (k.text, c)
termination_by structural p => p
/-- import_export.go:442-460 `parseStructValue`, the loop -/
def importFields (E : Env) (S : SortFn) (F : FloatText) (ex : Ext) (ro : RO) (res : V) : List GoField → R V
  | [] => .ok res
  | f :: fs =>
    match importField E S F ex ro f with
    | .ok l =>
      match mustSetAll E res l with
      | .ok res => importFields E S F ex ro res fs
      | .err e => .err e
      | .panic => .panic
      | .diverge => .diverge
    | .err e => .err e
    | .panic => .panic
    | .diverge => .diverge
termination_by structural fs => fs
/-- import_export.go:469-500 `parseStructFieldValue` and 502-556 `parseStructAnonymousFieldValue`: the keys and children -/
def importField (E : Env) (S : SortFn) (F : FloatText) (pex : Ext) (ro : RO) : GoField → R (List (Bytes × V))
  | .mk name tag true exported x =>
    let fx := readAnonymousFieldTag E name tag pex
    if fx.1 = [0x2D] then .ok []
    else if isNilPtr x then if fx.2.omit then .ok [] else .ok [(fx.1, .null)]
    else do
      let c ← importVal E S F fx.2 (ro.field true exported) x
      anonMembers S fx.1 fx.2 c
  | .mk name tag false exported x =>
    if ro.field false exported ≠ .no then .ok []
    else
      let fx := readFieldTag E name tag pex
      if fx.1 = [0x2D] then .ok []
      else do
        let c ← importVal E S F fx.2 (ro.field false exported) x
        pure (if isNil c then [] else [(fx.1, c)])
termination_by structural f => f
end

/-- import_export.go:27-40 `Import`: the value and the error; beta/strconv.go:8-10 `Import` calls it -/
def goImport (E : Env) (S : SortFn) (F : FloatText) (ignoreOmitempty : Bool) (x : GoVal) : R (V × Option Err) :=
  match importVal E S F { ignoreOmitempty := ignoreOmitempty } .no x with
  | .ok v => .ok (v, none)
  | .err e => .ok (.notExist, some e)
  | .panic => .panic
  | .diverge => .diverge

/-- new.go:18-21 `New`; `ig` is what the default options (SetDefaultMarshalOptions) say about omitempty, which Import reads when it is called without
options (option.go:226-233) -/
def goNew (E : Env) (S : SortFn) (F : FloatText) (ig : Bool) (x : GoVal) : R V := do return (← goImport E S F ig x).1

/-- set.go:49-66 the child of `Set(child any)`, insert_append_delete.go:70-88 of `Insert`, 311-326 of `Append`: nil is NewNull(); `ig` as for `New` -/
def childOf (E : Env) (S : SortFn) (F : FloatText) (ig : Bool) (x : GoVal) : R Ch :=
  match x with
  | .invalid => .ok { c := .null }
  | .jv v => .ok { c := v }
  | x => do
    let (v, e) ← goImport E S F ig x
    pure { c := v, err := e }

end JV
