import Verif.Model.Marshal
import Verif.Model.Iterate
/-!
`ValueType.String`, `V.ValueType` and `V.String`.
-/
namespace JV

/-- jsonvalue.go:73-83 `typeStr`: illegal, string, number, object, array, boolean, null, unknown -/
def typeStr : List Bytes :=
  [[0x69, 0x6C, 0x6C, 0x65, 0x67, 0x61, 0x6C], [0x73, 0x74, 0x72, 0x69, 0x6E, 0x67], [0x6E, 0x75, 0x6D, 0x62, 0x65, 0x72],
   [0x6F, 0x62, 0x6A, 0x65, 0x63, 0x74], [0x61, 0x72, 0x72, 0x61, 0x79], [0x62, 0x6F, 0x6F, 0x6C, 0x65, 0x61, 0x6E],
   [0x6E, 0x75, 0x6C, 0x6C], [0x75, 0x6E, 0x6B, 0x6E, 0x6F, 0x77, 0x6E]]

/-- jsonvalue.go:84-92 `ValueType.String`; a ValueType is an int (jsonvalue.go:52), NotExist is 0 and Unknown is 7 -/
def typeName (t : Int) : R Bytes :=
  let t := if t > 7 then 0 else if t < 0 then 0 else t
  match typeStr[t.toNat]? with
  | some s => .ok s
  | none => .panic

/-- jsonvalue.go:94-97 `V.ValueType`, the constants of 54-72. -/
def valueType : V → R Int
  | .nilp => .panic
  | .notExist => .ok 0
  | .str _ => .ok 1
  | .num _ _ => .ok 2
  | .obj _ _ _ => .ok 3
  | .arr _ => .ok 4
  | .bool _ => .ok 5
  | .null => .ok 6

mutual
/-- jsonvalue.go:536-559 `V.String`, with packObjChildren (561-565) and packArrChildren (582-586). The model has no value of type Unknown; the code
treats it like NotExist. -/
def describe (E : Env) : V → R Bytes
  | .nilp => .ok [0x6E, 0x69, 0x6C]
  | .notExist => .ok []
  | .null => .ok nullText
  | .num src n => if src.length > 0 then .ok src else .ok (E.fmtFloat n.f64)
  | .str s => .ok s
  | .bool b => .ok (formatBool b)
  | .obj _ kvs _ => do
    let buf ← describeObj E kvs 0 [0x7B]
    pure (buf ++ [0x7D])
  | .arr xs => do
    let buf ← describeArr E xs 0 [0x5B]
    pure (buf ++ [0x5D])
termination_by structural v => v
/-- jsonvalue.go:567-580 `bufObjChildren`: the loop, in the order of the map -/
def describeObj (E : Env) : List Ent → Nat → Bytes → R Bytes
  | [], _, buf => .ok buf
  | ⟨k, _, v⟩ :: es, i, buf => do
    let buf := if i > 0 then buf ++ [0x2C, 0x20] else buf
    let buf := buf ++ k ++ [0x3A, 0x20]
    let t ← describe E v
    describeObj E es (i + 1) (buf ++ t)
termination_by structural es => es
/-- jsonvalue.go:588-598 `bufArrChildren`: what RangeArray (iteration.go:113-126) does with the callback, which always returns true -/
def describeArr (E : Env) : List V → Nat → Bytes → R Bytes
  | [], _, buf => .ok buf
  | v :: xs, i, buf => do
    let buf := if i > 0 then buf ++ [0x2C, 0x20] else buf
    let t ← describe E v
    describeArr E xs (i + 1) (buf ++ t)
termination_by structural xs => xs
end

end JV
