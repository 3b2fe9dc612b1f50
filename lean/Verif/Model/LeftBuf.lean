import Verif.Model.ParseBuf
/-!
The buffer a failed parse leaves behind. The functions of `ParseBuf` return the buffer with their result only; these follow the same loops
and give the buffer as it is when they return, whatever the result (that it is the returned one after a success is `left_ok`). What is read
has no influence on the buffer, so the values are not kept, and of the state of an object only whether there are a key and a colon.
-/
namespace JV

/-- unmarshal.go:400-431: a step that fails has written nothing (unmarshal.go:434-533 and 387-393 check before they write) -/
def strLeft : Nat → Bytes → Nat → Nat → Bytes
  | 0, it, _, _ => it
  | f+1, it, i, se =>
    if i < it.length then
      match strStepB it i se with
      | .ok (some (it, i, se)) => strLeft f it i se
      | _ => it
    else it

/-- a scalar, unmarshal.go:29-61: only a string literal writes -/
def scalarLeft (f : Nat) (it : Bytes) (offset : Nat) (c : UInt8) : Bytes :=
  if c = 0x22 then strLeft f it (offset + 1) (offset + 1) else it

mutual
/-- unmarshal.go:86-166 -/
def arrLeft (E : Env) : Nat → Bytes → Nat → Bytes
  | 0, it, _ => it
  | f+1, it, offset =>
    if offset < it.length then
      match skipBlanksB it offset with
      | .ok (offset, false) =>
        match rd it offset with
        | .ok chr =>
          if chr = 0x5D then it
          else if chr = 0x2C then arrLeft E f it (offset + 1)
          else if chr = 0x7B then
            match objLoopB E f it (offset + 1) {} with
            | .ok (it, _, e) => arrLeft E f it e
            | _ => objLeft E f it (offset + 1) false false
          else if chr = 0x5B then
            match arrLoopB E f it (offset + 1) [] with
            | .ok (it, _, e) => arrLeft E f it e
            | _ => arrLeft E f it (offset + 1)
          else
            match parseScalarB E (f+1) it offset chr with
            | .ok (some (it, _, e)) => arrLeft E f it e
            | _ => scalarLeft (f+1) it offset chr
        | _ => it
      | _ => it
    else it
/-- unmarshal.go:209-348; `key`: a key was read (`keyEnd > 0`), `colon`: `colonFound` -/
def objLeft (E : Env) : Nat → Bytes → Nat → Bool → Bool → Bytes
  | 0, it, _, _, _ => it
  | f+1, it, offset, key, colon =>
    if offset < it.length then
      match skipBlanksB it offset with
      | .ok (offset, false) =>
        match rd it offset with
        | .ok chr =>
          if chr = 0x7D then it
          else if chr = 0x2C then
            if key then it else objLeft E f it (offset + 1) key colon
          else if chr = 0x3A then
            if colon || !key then it else objLeft E f it (offset + 1) key true
          else if chr = 0x22 then
            if key && !colon then it
            else
              match parseStrB (f+1) it offset with
              | .ok (it, _, e) => objLeft E f it e (!key) (colon && !key)
              | _ => strLeft (f+1) it (offset + 1) (offset + 1)
          else if !key || !colon then it
          else if chr = 0x7B then
            match objLoopB E f it (offset + 1) {} with
            | .ok (it, _, e) => objLeft E f it e false false
            | _ => objLeft E f it (offset + 1) false false
          else if chr = 0x5B then
            match arrLoopB E f it (offset + 1) [] with
            | .ok (it, _, e) => objLeft E f it e false false
            | _ => arrLeft E f it (offset + 1)
          else
            match parseScalarB E (f+1) it offset chr with
            | .ok (some (it, _, e)) => objLeft E f it e false false
            | _ => it
        | _ => it
      | _ => it
    else it
end

/-- unmarshal.go:14-76: the buffer when `unmarshalWithIter` returns -/
def leftB (E : Env) (it : Bytes) : Bytes :=
  match skipBlanksB it 0 with
  | .ok (offset, false) =>
    match rd it offset with
    | .ok chr =>
      if chr = 0x7B then objLeft E (it.length + 1) it (offset + 1) false false
      else if chr = 0x5B then arrLeft E (it.length + 1) it (offset + 1)
      else scalarLeft (it.length + 1) it offset chr
    | _ => it
  | _ => it

end JV
