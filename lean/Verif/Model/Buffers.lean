import Verif.Model.Api
/-!
Which byte arrays the values refer to. Strings, keys and number texts of a value are ranges of byte arrays (Go strings and the field `srcByte`); the
parser lets them point into its input. This file follows the arrays of a whole program: those the caller can write to (slices it made or was given),
and those only the library knows.
-/
namespace JV

/-- the range `[s, e)` of the array number `buf` -/
structure Ref where
  buf : Nat
  s : Nat
  e : Nat

mutual
/-- a value with its texts in memory; jsonvalue.go:100-121. The cache `lowerCaseKeys` is left out, nil and `&V{}` are in. -/
inductive MV where
  | nilp
  | notExist
  | str (r : Ref)
  | num (r : Ref) (n : Num)
  | bool (b : Bool)
  | null
  | arr (xs : List MV)
  | obj (incr : BitVec 32) (kvs : List MEnt)
inductive MEnt where
  | mk (k : Ref) (id : BitVec 32) (v : MV)
end

/-- the bytes of a range -/
def Ref.read (mem : List Bytes) (r : Ref) : Bytes := sub (mem.getD r.buf []) r.s r.e

mutual
/-- what the value is when the arrays hold `mem` -/
def MV.read (mem : List Bytes) : MV → V
  | .nilp => .nilp
  | .notExist => .notExist
  | .str r => .str (r.read mem)
  | .num r n => .num (r.read mem) n
  | .bool b => .bool b
  | .null => .null
  | .arr xs => .arr (MV.readL mem xs)
  | .obj i kvs => .obj i (MV.readE mem kvs) none
def MV.readL (mem : List Bytes) : List MV → List V
  | [] => []
  | x :: xs => x.read mem :: MV.readL mem xs
def MV.readE (mem : List Bytes) : List MEnt → List Ent
  | [] => []
  | ⟨k, i, v⟩ :: xs => ⟨k.read mem, i, v.read mem⟩ :: MV.readE mem xs
end

mutual
/-- all ranges a value refers to -/
def MV.refs : MV → List Ref
  | .str r => [r]
  | .num r _ => [r]
  | .arr xs => MV.refsL xs
  | .obj _ kvs => MV.refsE kvs
  | _ => []
def MV.refsL : List MV → List Ref
  | [] => []
  | x :: xs => x.refs ++ MV.refsL xs
def MV.refsE : List MEnt → List Ref
  | [] => []
  | ⟨k, _, v⟩ :: xs => k :: v.refs ++ MV.refsE xs
end

mutual
/-- the value the parser has made, its input being the array number `b` -/
def PV.inBuf (b : Nat) : PV → MV
  | .str s e => .str ⟨b, s, e⟩
  | .num s e n => .num ⟨b, s, e⟩ n
  | .bool x => .bool x
  | .null => .null
  | .arr xs => .arr (PV.inBufL b xs)
  | .obj i kvs => .obj i (PV.inBufE b kvs)
def PV.inBufL (b : Nat) : List PV → List MV
  | [] => []
  | x :: xs => x.inBuf b :: PV.inBufL b xs
def PV.inBufE (b : Nat) : List PEnt → List MEnt
  | [] => []
  | ⟨s, e, i, v⟩ :: xs => ⟨⟨b, s, e⟩, i, v.inBuf b⟩ :: PV.inBufE b xs
end

/-- All byte arrays of the program; those of them the caller can write to; those that were given to UnmarshalNoCopy; the values (also those that are
not in use any more). -/
structure BufSt where
  mem : List Bytes := []
  mine : List Nat := []
  lent : List Nat := []
  vals : List MV := []

/-- what happens to the arrays -/
inductive BufOp where
  /-- the caller makes a slice -/
  | make (bs : Bytes)
  /-- the caller writes into a slice: `b[i] = c` -/
  | write (r i : Nat) (c : UInt8)
  /-- jsonvalue.go:238-251 `Unmarshal` (UnmarshalJSON, UnmarshalBinary and Import of a json.Marshaler call it) -/
  | unmarshal (r : Nat)
  /-- jsonvalue.go:210-221 `UnmarshalString` -/
  | unmarshalString (s : Bytes)
  /-- jsonvalue.go:271-280 `UnmarshalNoCopy` -/
  | unmarshalNoCopy (r : Nat)
  /-- a new slice is returned: marshal.go:17-75 `Marshal` and its variants (internal/buffer/buffer.go:14-18 makes a new array), jsonvalue.go:485-493
  `Bytes` and get.go `GetBytes` (base64 decodes into a new array) -/
  | give (bs : Bytes)
  /-- a string that is not in memory yet: new.go:17-29 `NewString` (any Go string is an array nobody writes to), new.go:31-35 `NewBytes` (the base64
  text) -/
  | newString (s : Bytes)
  /-- a number: new.go:37-92, 248-262 convert the text to a new `[]byte` -/
  | newNum (t : Bytes) (n : Num)
  /-- Everything else (Get, Set, Insert, Append, Delete, Import of a `*V`, …) puts values together: the texts of the result are texts of the values
  there are. jsonvalue.go:496-533 `deepCopy` copies the fields of strings and numbers, not the bytes. -/
  | build (w : MV)

/-- the step; `junk`: what a parse leaves in the array when it fails (`leftB E`; the theorems hold for any function). An operation that is impossible (an array the caller does not have, an
index out of range: a panic) does nothing. -/
def BufSt.step (E : Env) (junk : Bytes → Bytes) (st : BufSt) : BufOp → BufSt
  | .make bs => { st with mem := st.mem ++ [bs], mine := st.mem.length :: st.mine }
  | .write r i c => if r ∈ st.mine then { st with mem := st.mem.set r ((st.mem.getD r []).set i c) } else st
  | .unmarshal r =>
    if r ∈ st.mine then
      let b := st.mem.getD r []
      let trueB := copyBytes (List.replicate b.length 0) b
      match unmarshalWithIterB E trueB with
      | .ok (it, pv) => { st with mem := st.mem ++ [it], vals := pv.inBuf st.mem.length :: st.vals }
      | _ => { st with mem := st.mem ++ [junk trueB] }
    else st
  | .unmarshalString s =>
    match unmarshalWithIterB E s with
    | .ok (it, pv) => { st with mem := st.mem ++ [it], vals := pv.inBuf st.mem.length :: st.vals }
    | _ => { st with mem := st.mem ++ [junk s] }
  | .unmarshalNoCopy r =>
    if r ∈ st.mine then
      match unmarshalWithIterB E (st.mem.getD r []) with
      | .ok (it, pv) => { st with mem := st.mem.set r it, lent := r :: st.lent, vals := pv.inBuf r :: st.vals }
      | _ => { st with mem := st.mem.set r (junk (st.mem.getD r [])) }
    else st
  | .give bs => { st with mem := st.mem ++ [bs], mine := st.mem.length :: st.mine }
  | .newString s => { st with mem := st.mem ++ [s], vals := .str ⟨st.mem.length, 0, s.length⟩ :: st.vals }
  | .newNum t n => { st with mem := st.mem ++ [t], vals := .num ⟨st.mem.length, 0, t.length⟩ n :: st.vals }
  | .build w => { st with vals := w :: st.vals }

end JV
