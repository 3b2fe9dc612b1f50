import Verif.Model.Pool
/-!
The size predictor of jsonvalue_internal.go, shared by all goroutines, and any number of goroutines running
`Unmarshal` against it. Every atomic load or store is one step; everything between two of them is local to
the goroutine and is done together with the step before it. `int` is 64 bits wide.
-/
namespace JV

/-- jsonvalue_internal.go:16-19: the two words accessed with `sync/atomic` -/
structure Shared where
  bpv : BitVec 64
  store : BitVec 64
deriving DecidableEq

/-- jsonvalue_internal.go:36-45 `internalLoadPredictSizePerValue`: the word `calcStorage` split -/
def calcTotal (v : BitVec 64) : BitVec 64 := v >>> 32
def calcNum (v : BitVec 64) : BitVec 64 := v &&& 0xFFFFFFFF#64

/-- where a goroutine is inside `Unmarshal` -/
inductive Pc where
  /-- about to load `bytesPerValue` (line 37) -/
  | start
  /-- it was 0, about to load `calcStorage` (line 41) -/
  | readCalc
  /-- parsed with `n` pool requests, about to load `calcStorage` in `release` (line 48) -/
  | release (n : Nat) (r : R NV)
  /-- about to store `calcStorage` (line 57) -/
  | store (x : BitVec 64) (r : R NV)
  /-- about to store `bytesPerValue` (line 62) -/
  | storeBpv (per : BitVec 64) (r : R NV)
  /-- about to store `calcStorage` (line 63) -/
  | storePer (per : BitVec 64) (r : R NV)
  /-- returned -/
  | done (r : R NV)
  /-- stopped by a run-time panic -/
  | panicked

/-- one call of `Unmarshal`; `cnt` is the number of values pre-allocated for it so far -/
structure Thread where
  input : Bytes
  cnt : Nat := 0
  pc : Pc := .start

/-- jsonvalue_internal.go:85-97 `newPool` with the loaded prediction, then the parse (jsonvalue.go:248):
`rawSize / per` panics for 0, `make` for a negative length -/
def enter (E : Env) (th : Thread) (per : Int) : Thread :=
  if per = 0 then { th with pc := .panicked }
  else
    let cnt := Int.tdiv th.input.length per
    if cnt < 0 then { th with pc := .panicked }
    else
      let r := parseIn E cnt.toNat th.input
      { th with cnt := cnt.toNat, pc := .release r.2.actual r.1 }

/-- jsonvalue_internal.go:48-61 between the load and the next store -/
def accumulate (th : Thread) (v : BitVec 64) (n : Nat) (r : R NV) : Thread :=
  let nextTotal := BitVec.ofNat 64 th.input.length + calcTotal v
  let nextNum := BitVec.ofNat 64 n + calcNum v
  if nextTotal < 0x7FFFFFFF#64 then { th with pc := .store ((nextTotal <<< 32) + nextNum) r }
  else if nextNum = 0#64 then { th with pc := .panicked }
  else { th with pc := .storeBpv (nextTotal / nextNum) r }

/-- one step of one goroutine: jsonvalue_internal.go:36-64, 85-112, jsonvalue.go:247-250 -/
def stepThread (E : Env) (sh : Shared) (th : Thread) : Option (Shared × Thread) :=
  match th.pc with
  | .start =>
    if sh.bpv > 0#64 then some (sh, enter E th sh.bpv.toInt)
    else some (sh, { th with pc := .readCalc })
  | .readCalc =>
    if calcNum sh.store = 0#64 then some (sh, { th with pc := .panicked })
    else some (sh, enter E th (calcTotal sh.store / calcNum sh.store).toInt)
  | .release n r => some (sh, accumulate th sh.store n r)
  | .store x r => some ({ sh with store := x }, { th with pc := .done r })
  | .storeBpv per r => some ({ sh with bpv := per }, { th with pc := .storePer per r })
  | .storePer per r => some ({ sh with store := (per <<< 32) + 1#64 }, { th with pc := .done r })
  | .done _ => none
  | .panicked => none

/-- the process: the shared words and all calls made so far -/
structure Proc where
  sh : Shared
  threads : List Thread

/-- after `init` (jsonvalue_internal.go:30): `internalAddPredictSizePerValue(16, 1)` on zero words -/
def procInit : Proc := { sh := { bpv := 0#64, store := (16#64 <<< 32) + 1#64 }, threads := [] }

/-- one step of the process: some goroutine calls `Unmarshal` on a non-empty input (an empty one returns before
the pool is touched, jsonvalue.go:239-241), or some goroutine moves on -/
inductive PStep (E : Env) : Proc → Proc → Prop where
  | call (p : Proc) (b : Bytes) (h : b ≠ []) : PStep E p { p with threads := p.threads ++ [{ input := b }] }
  | move (p : Proc) (i : Nat) (th th' : Thread) (sh' : Shared) (hi : p.threads[i]? = some th)
      (hs : stepThread E p.sh th = some (sh', th')) : PStep E p { sh := sh', threads := p.threads.set i th' }

/-- any number of steps -/
inductive PSteps (E : Env) : Proc → Proc → Prop where
  | refl (p : Proc) : PSteps E p p
  | step {p q r : Proc} : PSteps E p q → PStep E q r → PSteps E p r

/-- the states any interleaving can reach -/
inductive Reach (E : Env) : Proc → Prop where
  | init : Reach E procInit
  | step {p q : Proc} : Reach E p → PStep E p q → Reach E q

end JV
