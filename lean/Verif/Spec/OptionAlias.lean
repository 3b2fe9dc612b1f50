import Verif.Model.OptionAlias
/-!
What a program that makes options and marshals expects: an option says what the slice held when it was made.
-/
namespace Spec
open JV

/-- what the option says if it is made now -/
def optNow (mem : SeqMem) : RefOpt → MOpt
  | .plain m => m
  | .keySeq r => .keySeq (mem.getD r [])
  | .opt on lf r nt ns nf it ip ineg inff => .opt on lf (mem.getD r []) nt ns nf it ip ineg inff

/-- the results expected: options are values -/
def optExpect (E : Env) (S : SortFn) : SeqMem → List MOpt → Opt → List OptCall → List (R (Bytes × Option Err))
  | _, _, _, [] => []
  | mem, made, d, .make o :: cs => optExpect E S mem (made ++ [optNow mem o]) d cs
  | mem, made, d, .write r i s :: cs => optExpect E S (mem.write r i s) made d cs
  | mem, made, _, .setDefault os :: cs => optExpect E S mem made (setDefault (pick made os)) cs
  | mem, made, _, .reset :: cs => optExpect E S mem made emptyOptions cs
  | mem, made, d, .marshal v os :: cs => marshal E S d v (pick made os) :: optExpect E S mem made d cs

/-- the default options if they were set again now -/
def defaultNow (mem : SeqMem) : Option (List RefOpt) → Opt
  | none => emptyOptions
  | some ds => setDefault (ds.map (optNow mem))

/-- the results if every option said what its slice holds at the moment of the call of Marshal, also the options `ds` that the default was last
set to (`none`: never, or reset) -/
def optLate (E : Env) (S : SortFn) : SeqMem → List RefOpt → Option (List RefOpt) → List OptCall → List (R (Bytes × Option Err))
  | _, _, _, [] => []
  | mem, made, ds, .make o :: cs => optLate E S mem (made ++ [o]) ds cs
  | mem, made, ds, .write r i s :: cs => optLate E S (mem.write r i s) made ds cs
  | mem, made, _, .setDefault os :: cs => optLate E S mem made (some (pick made os)) cs
  | mem, made, _, .reset :: cs => optLate E S mem made none cs
  | mem, made, ds, .marshal v os :: cs =>
    marshal E S (defaultNow mem ds) v ((pick made os).map (optNow mem)) ::
      optLate E S mem made ds cs

/-- the slice an option holds -/
def optSlices : RefOpt → List Nat
  | .plain _ => []
  | .keySeq r => [r]
  | .opt _ _ r _ _ _ _ _ _ _ => [r]

/-- no slice is written after an option was made with it; `used` are the slices in options so far -/
def HandsOff (used : List Nat) : List OptCall → Prop
  | [] => True
  | .make o :: cs => HandsOff (optSlices o ++ used) cs
  | .write r _ _ :: cs => r ∉ used ∧ HandsOff used cs
  | _ :: cs => HandsOff used cs

end Spec
