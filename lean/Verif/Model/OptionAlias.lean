import Verif.Model.Marshal
/-!
Options and the slices they are made of. A Go slice is a reference: OptKeySequence keeps the slice that it is given, and so does an `Opt{}` with
`MarshalKeySequence`. Here options hold addresses of slices; Model/Option has the contents in their place.
-/
namespace JV

/-- the string slices of the caller. Simplification: slices that overlap in part do not occur. -/
abbrev SeqMem := List (List Bytes)

/-- An `Option` as the caller holds it: one without a key sequence or with one that nobody else has, OptKeySequence of the slice `r`
(option.go:317-319), or an `Opt{}` whose `MarshalKeySequence` is the slice `r` -/
inductive RefOpt where
  | plain (m : MOpt)
  | keySeq (r : Nat)
  | opt (omitNull : Bool) (less : Option LessFn) (r : Nat) (nanType : Nat) (nanS : Bytes) (nanF : BitVec 64)
      (infType : Nat) (infP infN : Bytes) (infF : BitVec 64)

/-- an `Opt` in memory; with `seq = some r` its `MarshalKeySequence` is the slice `r` -/
structure HOpt where
  o : Opt := {}
  seq : Option Nat := none

/-- the `mergeTo` methods that assign `MarshalKeySequence`, option.go:190-192, 303-310, 325-332, 347-352 -/
def MOpt.setsSeq : MOpt → Bool
  | .opt .. => true
  | .less (some _) => true
  | .keySeq _ => true
  | .setSeq => true
  | _ => false

/-- `mergeTo`: option.go:327 `opt.MarshalKeySequence = o.seq` and 191 `*tgt = o` copy the reference -/
def RefOpt.mergeTo (h : HOpt) : RefOpt → HOpt
  | .plain m => { o := m.mergeTo h.o, seq := if m.setsSeq then none else h.seq }
  | .keySeq r => { o := MOpt.mergeTo h.o (.keySeq []), seq := some r }
  | .opt on lf r nt ns nf it ip ineg inff => { o := MOpt.mergeTo h.o (.opt on lf [] nt ns nf it ip ineg inff), seq := some r }

/-- option.go:238-243 `combineOptionsFrom` -/
def HOpt.combineFrom (h : HOpt) (opts : List RefOpt) : HOpt :=
  let h := opts.foldl RefOpt.mergeTo h
  { h with o := { h.o with escaper := some (parseEscapingFuncs h.o.escProps) } }

/-- the `Opt` as Marshal reads it: sort.go:258-263 goes through the slice at the first object -/
def HOpt.read (mem : SeqMem) (h : HOpt) : Opt :=
  match h.seq with
  | none => h.o
  | some r => { h.o with keySeq := mem.getD r [] }

/-- marshal.go:38-53 `Marshal` with options that hold references; option.go:227-230 copies the default, reference and all -/
def marshalRef (E : Env) (S : SortFn) (mem : SeqMem) (d : HOpt) (v : V) (opts : List RefOpt) : R (Bytes × Option Err) :=
  match v with
  | .nilp => .panic
  | .notExist => .ok ([], some .valueUninitialized)
  | v => do
    let (st, e) ← marshalTo E S ((d.combineFrom opts).read mem) v none {}
    match e with
    | some e => pure ([], some e)
    | none => pure (st.buf, none)

/-- what a program does with options: makes one, assigns to an element of one of its own slices, sets or resets the defaults, marshals a value.
Options are named by the order in which they were made. -/
inductive OptCall where
  | make (o : RefOpt)
  | write (r i : Nat) (s : Bytes)
  | setDefault (os : List Nat)
  | reset
  | marshal (v : V) (os : List Nat)

/-- the slices of the program, its options, and the global `internal.defaultMarshalOption` -/
structure OptState where
  mem : SeqMem
  made : List RefOpt := []
  dflt : HOpt := {}

/-- `seq[i] = s` -/
def SeqMem.write (mem : SeqMem) (r i : Nat) (s : Bytes) : SeqMem := mem.set r ((mem.getD r []).set i s)

/-- the options with these names -/
def pick {α : Type} (made : List α) (os : List Nat) : List α := os.filterMap fun i => made[i]?

/-- the results of the Marshal calls of a program; option.go:210-214 `SetDefaultMarshalOptions`, 219-221 `ResetDefaultMarshalOptions` -/
def optRun (E : Env) (S : SortFn) (st : OptState) : List OptCall → List (R (Bytes × Option Err))
  | [] => []
  | .make o :: cs => optRun E S { st with made := st.made ++ [o] } cs
  | .write r i s :: cs => optRun E S { st with mem := st.mem.write r i s } cs
  | .setDefault os :: cs => optRun E S { st with dflt := HOpt.combineFrom {} (pick st.made os) } cs
  | .reset :: cs => optRun E S { st with dflt := {} } cs
  | .marshal v os :: cs => marshalRef E S st.mem st.dflt v (pick st.made os) :: optRun E S st cs

end JV
