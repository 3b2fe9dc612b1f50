import Verif.Model.Access
import Verif.Model.Modify
/-!
Byte strings held as base64 text. `encoding/base64` is not part of the repository; the two functions used are written here after its
source, quantum by quantum.
-/
namespace JV

/-- `encodeStd`, the alphabet of `base64.StdEncoding` -/
def b64Alphabet : Bytes :=
  [65,66,67,68,69,70,71,72,73,74,75,76,77,78,79,80,81,82,83,84,85,86,87,88,89,90,
   97,98,99,100,101,102,103,104,105,106,107,108,109,110,111,112,113,114,115,116,117,118,119,120,121,122,
   48,49,50,51,52,53,54,55,56,57,43,47]

/-- `enc.encode[x&0x3F]` -/
def b64Enc (x : Nat) : UInt8 := b64Alphabet.getD (x &&& 63) 0

/-- jsonvalue_internal.go:28, new.go:36, set.go:79: `base64.StdEncoding.EncodeToString` -/
def b64Encode : Bytes → Bytes
  | a :: b :: c :: rest =>
    let val := a.toNat <<< 16 ||| b.toNat <<< 8 ||| c.toNat
    b64Enc (val >>> 18) :: b64Enc (val >>> 12) :: b64Enc (val >>> 6) :: b64Enc val :: b64Encode rest
  | [a, b] =>
    let val := a.toNat <<< 16 ||| b.toNat <<< 8
    [b64Enc (val >>> 18), b64Enc (val >>> 12), b64Enc (val >>> 6), 61]
  | [a] =>
    let val := a.toNat <<< 16
    [b64Enc (val >>> 18), b64Enc (val >>> 12), 61, 61]
  | [] => []

/-- `enc.decodeMap[c]`, `none` for 0xFF -/
def b64Dec (c : UInt8) : Option Nat := b64Alphabet.idxOf? c

/-- the bytes of a quantum of `dlen` characters, `decodeQuantum`: `val := dbuf[0]<<18 | dbuf[1]<<12 | dbuf[2]<<6 | dbuf[3]` with the
missing digits 0 -/
def b64Quantum (d : List Nat) : Bytes :=
  let val := d.getD 0 0 <<< 18 ||| d.getD 1 0 <<< 12 ||| d.getD 2 0 <<< 6 ||| d.getD 3 0
  ([UInt8.ofNat (val >>> 16), UInt8.ofNat (val >>> 8), UInt8.ofNat val] : Bytes).take (d.length - 1)

/-- `Decode` of `base64.StdEncoding` on a text without line breaks; `none` for `CorruptInputError`. The eight and four byte fast paths of
the library do the same as `decodeQuantum`. -/
def b64DecodeQ : Bytes → Option Bytes
  | [] => some []
  | [a, b, c, d] =>
    match b64Dec a, b64Dec b with
    | some x, some y =>
      if c = 61 then if d = 61 then some (b64Quantum [x, y]) else none
      else match b64Dec c with
        | some z =>
          if d = 61 then some (b64Quantum [x, y, z])
          else match b64Dec d with
            | some w => some (b64Quantum [x, y, z, w])
            | none => none
        | none => none
    | _, _ => none
  | a :: b :: c :: d :: rest =>
    match b64Dec a, b64Dec b, b64Dec c, b64Dec d, b64DecodeQ rest with
    | some x, some y, some z, some w, some out => some (b64Quantum [x, y, z, w] ++ out)
    | _, _, _, _, _ => none
  | _ => none

/-- `base64.StdEncoding.DecodeString`: `\r` and `\n` are skipped wherever they are -/
def b64Decode (t : Bytes) : Option Bytes := b64DecodeQ (t.filter fun c => !(c == 10 || c == 13))

/-- new.go:35-38 `NewBytes`; set.go:77-81 `SetBytes` and set_must.go:45-48 store the same value -/
def newBytes (b : Bytes) : V := .str (b64Encode b)

/-- jsonvalue.go:485-494 `Bytes`. The receiver must not be nil. -/
def bytes (v : V) : R Bytes :=
  match v with
  | .nilp => .panic
  | .str s => match b64Decode s with
    | some b => .ok b
    | none => .ok []
  | _ => .ok []

/-- get.go:142-155 `getBytes` -/
def getBytes (E : Env) (cl : Bool) (v : V) (ps : List Param) : Ret Bytes :=
  typedGet E cl [] (fun
    | .nilp => .panic
    | .str s => match b64Decode s with
      | some b => .ok (b, none)
      | none => .ok ([], some .other)
    | _ => .ok ([], some .typeNotMatch)) v ps

end JV
