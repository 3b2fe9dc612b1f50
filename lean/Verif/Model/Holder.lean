import Verif.Model.StdJson
import Verif.Spec.Holder
/-!
json.Marshal and json.Unmarshal of Go data that holds values of this package (marshaler_unmarshaler.go:17-29: the methods have pointer receivers).
-/
namespace JV
open Spec

mutual
/-- `json.Marshal(h)`, `json.Marshal(&h)` if `addr`: encoding/json encode.go `newTypeEncoder`, `condAddrEncoder`, `arrayEncoder`, `mapEncoder`,
`structEncoder`, with marshaler_unmarshaler.go:17-19 for `*V` and for a `V` whose address can be taken (`f`, i.e. `jsonMarshal`). A `V` whose address
cannot be taken is written as a struct, and jsonvalue.go:102-111 has no exported field. The first error ends it. Slices and maps are not nil; fields
without options like omitempty, none embedded. -/
def encHold (f : V → R Bytes) : Bool → Hold → R Bytes
  | _, .ptr v => f v
  | a, .own v => if a then f v else .ok [0x7B, 0x7D]
  | a, .list k xs => do
    let t ← encElems f (elemAddr k a) true xs
    .ok (0x5B :: t ++ [0x5D])
  | a, .named k ms => do
    let t ← encFields f (fieldAddr k a) true ms
    .ok (0x7B :: t ++ [0x7D])
/-- the elements, separated by commas -/
def encElems (f : V → R Bytes) (a : Bool) (first : Bool) : HoldList → R Bytes
  | .nil => .ok []
  | .cons _ _ x xs => do
    let t ← encHold f a x
    let r ← encElems f a false xs
    .ok ((if first then [] else [0x2C]) ++ t ++ r)
/-- the members, separated by commas -/
def encFields (f : V → R Bytes) (a : Bool) (first : Bool) : HoldList → R Bytes
  | .nil => .ok []
  | .cons _ lit x xs => do
    let t ← encHold f a x
    let r ← encFields f a false xs
    .ok ((if first then [] else [0x2C]) ++ lit ++ 0x3A :: t ++ r)
end

/-- json.Marshal of Go data holding values -/
def jsonMarshalHold (E : Env) (S : SortFn) (d : Opt) (valid : Bytes → Bool) (addr : Bool) (h : Hold) : R Bytes := encHold (jsonMarshal E S d valid) addr h

mutual
/-- What decode.go `value`, `indirect`, `array`, `object` and `literalStore` make of a piece of text in a new variable of the type of the first
argument, when no error occurs: null in a pointer sets it to nil; else `u` (marshaler_unmarshaler.go:22-29 UnmarshalJSON on a new `V`) reads the piece,
for a `V` through its address. As a relation; for texts with as many elements and with the same keys as the first argument has. -/
def DecHold (u : Bytes → V → Prop) : Hold → Bytes → Hold → Prop
  | .ptr _, t, h => ∃ w, h = .ptr w ∧ if t = nullText then w = .nilp else u t w
  | .own _, t, h => ∃ w, h = .own w ∧ u t w
  | .list k xs, t, h => ∃ ts ys, h = .list k ys ∧ ArrayOf t ts ∧ DecElems u xs ts ys
  | .named k ms, t, h => ∃ fs ys, h = .named k ys ∧ ObjectOf t fs ∧ (fs.map (·.1)).Nodup ∧ (∀ f ∈ fs, f.1 ∈ ms.keys) ∧ DecFields u ms fs ys
def DecElems (u : Bytes → V → Prop) : HoldList → List Bytes → HoldList → Prop
  | .nil, ts, ys => ts = [] ∧ ys = .nil
  | .cons key lit x xs, ts, ys => ∃ t rest y zs, ts = t :: rest ∧ ys = .cons key lit y zs ∧ DecHold u x t y ∧ DecElems u xs rest zs
def DecFields (u : Bytes → V → Prop) : HoldList → List (Bytes × Bytes) → HoldList → Prop
  | .nil, _, ys => ys = .nil
  | .cons key lit x xs, fs, ys => ∃ t y zs, (key, t) ∈ fs ∧ ys = .cons key lit y zs ∧ DecHold u x t y ∧ DecFields u xs fs zs
end

/-- `json.Unmarshal(t, &x)` for a new variable `x` of the type of `h` leaves `h'` and reports no error: the check, then the decoder -/
def JsonUnmarshalHold (E : Env) (valid : Bytes → Bool) (h : Hold) (t : Bytes) (h' : Hold) : Prop :=
  valid t = true ∧ DecHold (fun b w => unmarshalJSON E .notExist b = .ok (w, none)) h t h'

end JV
