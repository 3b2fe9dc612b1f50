/-!
Go level primitives: bytes, errors, results, bounds-checked slice access.
-/
namespace JV

/-- A Go `[]byte` or `string`. -/
abbrev Bytes := List UInt8

/-- Error kinds of the package, errors.go:11-110. `other` stands for an error created in place
(`errors.New`, `fmt.Errorf` without `%w`, errors of the standard library). Message texts are not modelled. -/
inductive Err where
  | nilParameter | valueUninitialized | rawBytesUnrecognized | notValidNumberValue | notValidBoolValue | notValidNullValue
  | outOfRange | notFound | typeNotMatch | parseNumberFromString | notArrayValue | notObjectValue
  | illegalString | unsupportedFloat | unsupportedFloatInOpt | multipleParam | parameterError
  | other
deriving DecidableEq, Repr

/-- Outcome of a Go call: normal return with a nil error, return with an error, run-time panic
(index or slice out of range, nil dereference), or not finished within the fuel given to the model. -/
inductive R (α : Type) where
  | ok (a : α)
  | err (e : Err)
  | panic
  | diverge
deriving Repr, DecidableEq

namespace R
variable {α β : Type}

/-- Sequencing: anything but a normal return is passed on. -/
def bind (x : R α) (f : α → R β) : R β :=
  match x with
  | ok a => f a
  | err e => err e
  | panic => panic
  | diverge => diverge

instance : Monad R where
  pure := ok
  bind := bind

@[simp] theorem pure_eq (a : α) : (pure a : R α) = ok a := rfl
@[simp] theorem bind_ok (a : α) (f : α → R β) : (ok a >>= f) = f a := rfl
@[simp] theorem bind_err (e : Err) (f : α → R β) : ((err e : R α) >>= f) = err e := rfl
@[simp] theorem bind_panic (f : α → R β) : ((panic : R α) >>= f) = panic := rfl
@[simp] theorem bind_diverge (f : α → R β) : ((diverge : R α) >>= f) = diverge := rfl

/-- The call came back to its caller (value or error). -/
def returns : R α → Prop
  | ok _ => True
  | err _ => True
  | _ => False
end R

/-- `it[i]` -/
def rd (it : Bytes) (i : Nat) : R UInt8 :=
  match it[i]? with
  | some b => .ok b
  | none => .panic

/-- `it[i] = b` -/
def wr (it : Bytes) (i : Nat) (b : UInt8) : R Bytes :=
  if i < it.length then .ok (it.set i b) else .panic

/-- contents of `it[a:b]` -/
def sub (it : Bytes) (a b : Nat) : Bytes := (it.drop a).take (b - a)

/-- `it[a:b]`. Go allows `b` up to the capacity; the model is stricter and panics beyond the length. -/
def slice (it : Bytes) (a b : Nat) : R Bytes :=
  if a ≤ b ∧ b ≤ it.length then .ok (sub it a b) else .panic

/-- Standard library functions that are parameters of the model (trusted base):
* `parseFloat`: `strconv.ParseFloat(s, 64)`, `none` for an error (syntax or range); the bits of the result otherwise.
* `f64ToI64`, `f64ToU64`: Go's `int64(f)`, `uint64(f)` (implementation defined when out of range).
* `i64ToF64`, `u64ToF64`: Go's `float64(i)`.
* `toLower`: `strings.ToLower`.
* `fmtFloat`: `strconv.FormatFloat(f, 'g', -1, 64)`;
* `jsonFloat`: `json.Marshal(f)` for a finite f;
* `decimal`: `decimal.NewFromString`, `none` for an error, as an exact rational `n / 10^k`
  given by the pair `(n, k)`.
* `trimSpace`: `bytes.TrimSpace`;
* `f64ToF32`: Go's `float32(f)`, as its bit pattern. -/
structure Env where
  parseFloat : Bytes → Option (BitVec 64)
  f64ToI64 : BitVec 64 → BitVec 64
  f64ToU64 : BitVec 64 → BitVec 64
  i64ToF64 : BitVec 64 → BitVec 64
  u64ToF64 : BitVec 64 → BitVec 64
  toLower : Bytes → Bytes
  fmtFloat : BitVec 64 → Bytes
  jsonFloat : BitVec 64 → Bytes
  decimal : Bytes → Option (Int × Nat)
  trimSpace : Bytes → Bytes
  f64ToF32 : BitVec 64 → BitVec 32

end JV
