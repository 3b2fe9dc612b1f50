import Verif.Model.Api
import Verif.Model.Marshal
/-!
`Export`. What comes after Marshal is encoding/json, which is not part of the repository: it is a parameter here, Spec/Export says what is assumed
about it.
-/
namespace JV

/-- what `json.Unmarshal` makes of a text when the target is an `interface{}`: nil, bool, float64 (its bits), string, []interface{} or
map[string]interface{} (with distinct keys, in any order) -/
inductive AnyVal where
  | nil
  | bool (b : Bool)
  | flt (f : BitVec 64)
  | str (s : Bytes)
  | slice (xs : List AnyVal)
  | map (kvs : List (Bytes × AnyVal))

/-- `m[k]` of such a map -/
def anyFind (k : Bytes) : List (Bytes × AnyVal) → Option AnyVal
  | [] => none
  | (k', g) :: kvs => if k' = k then some g else anyFind k kvs

/-- `json.Unmarshal(b, &x)` with an `interface{}`: `none` is an error -/
abbrev AnyDec := Bytes → Option AnyVal

/-- import_export.go:15-22 `Export` into an `interface{}` -/
def exportAny (E : Env) (S : SortFn) (d : Opt) (dec : AnyDec) (v : V) : R AnyVal :=
  match marshal E S d v [] with
  | .ok (b, none) => match dec b with
    | some g => .ok g
    | none => .err .other
  | .ok (_, some e) => .err e
  | .err e => .err e
  | .panic => .panic
  | .diverge => .diverge

/-- import_export.go:15-22 `Export` into a `*V`: json.Unmarshal checks the text (`valid`) and hands it without white space around it to UnmarshalJSON
(marshaler_unmarshaler.go:22-29). Marshal writes no white space at the ends, so that the whole text arrives. The result is the target
afterwards. -/
def exportV (E : Env) (S : SortFn) (d : Opt) (valid : Bytes → Bool) (v dst : V) : R (V × Option Err) :=
  match marshal E S d v [] with
  | .ok (b, none) => if valid b then unmarshalJSON E dst b else .ok (dst, some .other)
  | .ok (_, some e) => .ok (dst, some e)
  | .err e => .err e
  | .panic => .panic
  | .diverge => .diverge

end JV
