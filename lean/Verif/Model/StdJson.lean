import Verif.Model.Api
import Verif.Model.Marshal
import Verif.Spec.StdJson
/-!
`*V` as a json.Marshaler and json.Unmarshaler, called by encoding/json.
-/
namespace JV
open Spec

/-- `json.Marshal(v)`: a nil pointer gives null; otherwise marshaler_unmarshaler.go:17-19 `MarshalJSON`, whose text is checked (`valid`) and compacted
(Spec/StdJson; the standard library does both in one pass). An error of MarshalJSON or of the check is reported (wrapped) with no text. -/
def jsonMarshal (E : Env) (S : SortFn) (d : Opt) (valid : Bytes → Bool) (v : V) : R Bytes :=
  match v with
  | .nilp => .ok nullText
  | v => do
    let (b, e) ← marshalJSON E S d v
    match e with
    | none => if valid b then .ok (compact false false 0 b) else .err .other
    | some e => .err e

/-- `json.Unmarshal(b, dst)` for a `*V` and a text without white space around it: the check, then marshaler_unmarshaler.go:22-29 `UnmarshalJSON` -/
def jsonUnmarshal (E : Env) (valid : Bytes → Bool) (dst : V) (b : Bytes) : R (V × Option Err) :=
  if valid b then unmarshalJSON E dst b else .ok (dst, some .other)

end JV
