import Verif.Model.Export
import Verif.Model.Describe
import Verif.Model.Compare
import Verif.Model.Modify
import Verif.Model.Base64
import Verif.Model.Channel
/-!
One call of a method of a value, with all its arguments. Only whether the call comes back matters here, and the value afterwards.
-/
namespace JV

/-- the conversions to numbers: Int64/Int, Uint64/Uint, Int32, Uint32, Float64, Float32 (jsonvalue.go:404-477) -/
inductive NumConv where
  | int64 | uint64 | int32 | uint32 | float64 | float32

/-- jsonvalue.go:287-385 the predicates -/
inductive Pred where
  | isObject | isArray | isString | isNumber | isFloat | isInteger | isNegative | isPositive | greaterThanInt64Max | isBoolean | isNull

/-- compare.go:12-45 -/
inductive Cmp where
  | gt | ge | lt | le

/-- the getters other than those for numbers: get.go:138-173 (GetBytes, GetString), 306-371 (GetBool, GetNull, GetObject, GetArray) -/
inductive Getter where
  | string | bytes | bool | null | object | array

/-- The methods of `*V` (and beta.Contains, beta.Equal). `σ` is what the callbacks keep. Get and the like need a first parameter. The families
of methods that only make the child themselves (SetString, AppendInt, …) are the calls with that child (Model/GoApi). -/
inductive Call (σ : Type) where
  | get (cl : Bool) (p : Param) (ps : List Param)
  | mustGet (p : Param) (ps : List Param)
  | getNum (k : NumConv) (cl : Bool) (p : Param) (ps : List Param)
  | getOther (k : Getter) (cl : Bool) (p : Param) (ps : List Param)
  | len
  | pred (k : Pred)
  | num (k : NumConv)
  | bool
  | bytes
  | string
  | valueType
  | set (ch : Ch) (p : Param) (ps : List Param)
  | insert (after : Bool) (ch : Ch) (p : Param) (ps : List Param)
  | append (beg : Bool) (ch : Ch) (ps : List Param)
  | delete (cl : Bool) (p : Param) (ps : List Param)
  | rangeObjects (cb : Option (Callback σ Bytes)) (s : σ)
  | rangeBySet (cb : Option (Callback σ Bytes)) (s : σ)
  | rangeArray (cb : Option (Callback σ Nat)) (s : σ)
  | forRangeObj
  | forRangeArr
  | iterArray
  | iterObjects (order : List Ent → List Ent)
  | sortArray (less : Option (V → V → Bool))
  | marshal (opts : List MOpt)
  | marshalString (opts : List MOpt)
  | mustMarshal (opts : List MOpt)
  | exportAny (dec : AnyDec)
  | exportV (valid : Bytes → Bool) (dst : V)
  | equal (w : V)
  | cmp (k : Cmp) (w : V)
  | contains (sub : V) (path : List Param)

/-- whether a call comes back: the result is dropped -/
def R.done {α : Type} : R α → R Unit
  | .ok _ => .ok ()
  | .err e => .err e
  | .panic => .panic
  | .diverge => .diverge

/-- jsonvalue.go:404-477 -/
def NumConv.run (E : Env) (v : V) : NumConv → R Unit
  | .int64 => (JV.int64 E v).done
  | .uint64 => (JV.uint64 E v).done
  | .int32 => (JV.int32 E v).done
  | .uint32 => (JV.uint32 E v).done
  | .float64 => (JV.float64 E v).done
  | .float32 => (JV.float32 E v).done

/-- get.go:178-301 -/
def NumConv.get (E : Env) (cl : Bool) (v : V) (ps : List Param) : NumConv → R Unit
  | .int64 => (getInt64 E cl v ps).done
  | .uint64 => (getUint64 E cl v ps).done
  | .int32 => (getInt32 E cl v ps).done
  | .uint32 => (getUint32 E cl v ps).done
  | .float64 => (getFloat64 E cl v ps).done
  | .float32 => (getFloat32 E cl v ps).done

/-- get.go:138-173, 306-371 -/
def Getter.get (E : Env) (cl : Bool) (v : V) (ps : List Param) : Getter → R Unit
  | .string => (getString E cl v ps).done
  | .bytes => (getBytes E cl v ps).done
  | .bool => (getBool E cl v ps).done
  | .null => (getNull E cl v ps).done
  | .object => (getObject E cl v ps).done
  | .array => (getArray E cl v ps).done

/-- jsonvalue.go:287-385 -/
def Pred.run (v : V) : Pred → R Bool
  | .isObject => JV.isObject v
  | .isArray => JV.isArray v
  | .isString => JV.isString v
  | .isNumber => JV.isNumber v
  | .isFloat => JV.isFloat v
  | .isInteger => JV.isInteger v
  | .isNegative => JV.isNegative v
  | .isPositive => JV.isPositive v
  | .greaterThanInt64Max => JV.greaterThanInt64Max v
  | .isBoolean => JV.isBoolean v
  | .isNull => JV.isNull v

/-- compare.go:12-45 -/
def Cmp.run (D : DecFn) (v w : V) : Cmp → R Bool
  | .gt => greaterThan D v w
  | .ge => greaterThanOrEqual D v w
  | .lt => lessThan D v w
  | .le => lessThanOrEqual D v w

/-- The value after the call, and how the call ended. Reading with Caseless() may set up the index of an object (get.go:411-498); the other
methods that only read leave the value as it is. The model functions cite the lines of the methods. -/
def Call.run {σ : Type} (E : Env) (S : SortFn) (D : DecFn) (d : Opt) (v : V) : Call σ → V × R Unit
  | .get cl p ps => ((getC E cl v (p :: ps)).1, (getC E cl v (p :: ps)).2.done)
  | .mustGet p ps => (v, (JV.mustGet E v (p :: ps)).done)
  | .getNum k cl p ps => ((getC E cl v (p :: ps)).1, k.get E cl v (p :: ps))
  | .getOther k cl p ps => ((getC E cl v (p :: ps)).1, k.get E cl v (p :: ps))
  | .len => (v, (JV.len v).done)
  | .pred k => (v, (k.run v).done)
  | .num k => (v, k.run E v)
  | .bool => (v, (JV.bool v).done)
  | .bytes => (v, (JV.bytes v).done)
  | .string => (v, (describe E v).done)
  | .valueType => (v, (JV.valueType v).done)
  | .set ch p ps => ((JV.set E v ch (p :: ps)).1, (JV.set E v ch (p :: ps)).2.done)
  | .insert after ch p ps => ((JV.insert E after v ch (p :: ps)).1, (JV.insert E after v ch (p :: ps)).2.done)
  | .append beg ch ps => ((JV.append E beg v ch ps).1, (JV.append E beg v ch ps).2.done)
  | .delete cl p ps => ((JV.delete E cl v (p :: ps)).1, (JV.delete E cl v (p :: ps)).2.done)
  | .rangeObjects cb s => (v, (JV.rangeObjects v cb s).done)
  | .rangeBySet cb s => (v, (rangeObjectsBySet S v cb s).done)
  | .rangeArray cb s => (v, (JV.rangeArray v cb s).done)
  | .forRangeObj => (v, (JV.forRangeObj v).done)
  | .forRangeArr => (v, (JV.forRangeArr v).done)
  | .iterArray => (v, (JV.iterArray v).done)
  | .iterObjects order => (v, (JV.iterObjects v order).done)
  | .sortArray less => match JV.sortArray S v less with
    | .ok w => (w, .ok ())
    | r => (v, r.done)
  | .marshal opts => (v, (JV.marshal E S d v opts).done)
  | .marshalString opts => (v, (JV.marshalString E S d v opts).done)
  | .mustMarshal opts => (v, (JV.mustMarshal E S d v opts).done)
  | .exportAny dec => (v, (JV.exportAny E S d dec v).done)
  | .exportV valid dst => (v, (JV.exportV E S d valid v dst).done)
  | .equal w => (v, R.done (.ok (JV.equal D v w)))
  | .cmp k w => (v, (k.run D v w).done)
  | .contains sub path => (v, (containsAt E D v sub path).done)

/-- A program: calls on the same value one after the other, as long as none panics. The list of outcomes. -/
def Call.runs {σ : Type} (E : Env) (S : SortFn) (D : DecFn) (d : Opt) (v : V) : List (Call σ) → V × List (R Unit)
  | [] => (v, [])
  | c :: cs =>
    match c.run E S D d v with
    | (w, .panic) => (w, [.panic])
    | (w, .diverge) => (w, [.diverge])
    | (w, r) => ((Call.runs E S D d w cs).1, r :: (Call.runs E S D d w cs).2)

end JV
