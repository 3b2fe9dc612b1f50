import Verif.Model.Import
/-!
Import on Go data in memory. `GoVal` (Model/Import) is a tree; here pointers, interfaces, slices, arrays, maps and structs refer to other values by
address, so that data can contain themselves: `p = &p` with `type T *T`, `s[0] = s` with `s []any`, `m["a"] = m`, a ring of structs.
-/
namespace JV

/-- a field of a struct: name, `json` tag, embedded, exported, where its value is -/
structure GField where
  name : Bytes
  tag : Bytes
  anon : Bool
  exported : Bool
  a : Nat

/-- One value as reflect shows it. `leaf`: all that refers to no other value, or to values that are trees, as in `GoVal`; json.Marshaler,
encoding.TextMarshaler and `*V` are among them (their methods are not followed into here). -/
inductive GNode where
  | leaf (x : GoVal)
  | arr (xs : List Nat)
  | slice (xs : List Nat)
  | map (kvs : List (GoKey × Nat))
  | ptr (a : Nat)
  | iface (a : Nat)
  | struct (fs : List GField)

/-- the values in memory -/
abbrev GHeap := Nat → GNode

/-- `fv.Kind() == reflect.Ptr && fv.IsNil()`, import_export.go:510 -/
def nilNode : GNode → Bool
  | .leaf x => isNilPtr x
  | _ => false

/-- import_export.go:330-349 `parseArrayValue`, the loop -/
def listG (E : Env) (rec : Nat → R V) : V → List Nat → R V
  | res, [] => .ok res
  | res, b :: bs => do
    let c ← rec b
    let res ← mustAppend E res c
    listG E rec res bs

/-- import_export.go:365-378 `parseMapValue`, the loop -/
def pairsG (E : Env) (rec : Nat → R V) : V → List (GoKey × Nat) → R V
  | res, [] => .ok res
  | res, (k, b) :: ps => do
    let c ← rec b
    let res ← mustSetKey E res c k.text
    pairsG E rec res ps

/-- import_export.go:469-500 `parseStructFieldValue` and 502-556 `parseStructAnonymousFieldValue` -/
def fieldG (E : Env) (S : SortFn) (h : GHeap) (rec : Ext → RO → Nat → R V) (pex : Ext) (ro : RO) (f : GField) : R (List (Bytes × V)) :=
  if f.anon then
    let fx := readAnonymousFieldTag E f.name f.tag pex
    if fx.1 = [0x2D] then .ok []
    else if nilNode (h f.a) then if fx.2.omit then .ok [] else .ok [(fx.1, .null)]
    else do
      let c ← rec fx.2 (ro.field true f.exported) f.a
      anonMembers S fx.1 fx.2 c
  else if ro.field false f.exported ≠ .no then .ok []
  else
    let fx := readFieldTag E f.name f.tag pex
    if fx.1 = [0x2D] then .ok []
    else do
      let c ← rec fx.2 .no f.a
      pure (if isNil c then [] else [(fx.1, c)])

/-- import_export.go:442-460 `parseStructValue`, the loop -/
def fieldsG (E : Env) (S : SortFn) (h : GHeap) (rec : Ext → RO → Nat → R V) (ex : Ext) (ro : RO) : V → List GField → R V
  | res, [] => .ok res
  | res, f :: fs => do
    let l ← fieldG E S h rec ex ro f
    let res ← mustSetAll E res l
    fieldsG E S h rec ex ro res fs

/-- import_export.go:65-139 `validateValAndReturnParser` and the parser it returns, as `importVal`; the first number bounds the nested calls -/
def importG (E : Env) (S : SortFn) (F : FloatText) (h : GHeap) : Nat → Ext → RO → Nat → R V
  | 0, _, _, _ => .diverge
  | n + 1, ex, ro, a =>
    match h a with
    | .leaf x => importVal E S F ex ro x
    | .arr xs => listG E (importG E S F h n { ex with omitempty := false } ro.elem) newArray xs
    | .slice xs =>
      if xs.isEmpty then .ok (if ex.omit then .nilp else newArray)
      else listG E (importG E S F h n { ex with omitempty := false } ro.elem) newArray xs
    | .map kvs =>
      if kvs.isEmpty then .ok (if ex.omit then .nilp else newObject)
      else pairsG E (importG E S F h n ex ro.elem) newObject kvs
    | .ptr b => importG E S F h n ex ro b
    | .iface b => importG E S F h n ex ro.elem b
    | .struct fs => fieldsG E S h (importG E S F h n) ex ro newObject fs

/-- import_export.go:27-40 `Import` of the value at `a`, with `n` nested calls at most -/
def goImportG (E : Env) (S : SortFn) (F : FloatText) (h : GHeap) (n : Nat) (ignoreOmitempty : Bool) (a : Nat) : R (V × Option Err) :=
  match importG E S F h n { ignoreOmitempty := ignoreOmitempty } .no a with
  | .ok v => .ok (v, none)
  | .err e => .ok (.notExist, some e)
  | .panic => .panic
  | .diverge => .diverge

end JV
