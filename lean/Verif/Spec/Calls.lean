import Verif.Model.Calls
import Verif.Spec.History
/-!
Which calls panic.
-/
namespace Spec
open JV

/-- not a nil pointer -/
def NotNil (v : V) : Prop := v ≠ .nilp

/-- made by public calls, and no nil pointer inside -/
def Usable (E : Env) (v : V) : Prop := Built E Any v ∧ NoNil v

/-- the values among the arguments were made by public calls and contain no nil pointers -/
def ArgsBuilt {σ : Type} (E : Env) : Call σ → Prop
  | .set ch _ _ => Usable E ch.c
  | .insert _ ch _ _ => Usable E ch.c
  | .append _ ch _ => Usable E ch.c
  | .exportV _ dst => NotNil dst
  | .cmp _ w => NotNil w
  | .contains sub _ => Usable E sub
  | _ => True

/-- The call turns a string into a number in which `bytes.TrimSpace` leaves nothing; the empty string counts only for the getters. -/
def ConvertsBlank {σ : Type} (E : Env) (v : V) : Call σ → Prop
  | .getNum _ cl p ps => ∃ s, (getC E cl v (p :: ps)).2 = .ok (.str s) ∧ E.trimSpace s = []
  | .num _ => ∃ s, v = .str s ∧ s ≠ [] ∧ E.trimSpace s = []
  | _ => False

/-- the call converts to a number -/
def IsConv {σ : Type} : Call σ → Prop
  | .getNum _ _ _ _ => True
  | .num _ => True
  | _ => False

/-- no parameter is a slice -/
def PlainArgs {σ : Type} : Call σ → Prop
  | .get _ p ps | .mustGet p ps | .getNum _ _ p ps | .getOther _ _ p ps | .set _ p ps | .insert _ _ p ps | .delete _ p ps => Plain (p :: ps)
  | .append _ _ ps => Plain ps
  | _ => True

/-- the calls that come back on a nil receiver: String, Set, After, InTheBeginning, a second use of a Inserter with an error, SortArray without a function,
Equal and Contains -/
def NilOK {σ : Type} : Call σ → Prop
  | .string => True
  | .set _ _ _ => True
  | .insert after ch _ _ => after = true ∨ ch.err ≠ none
  | .append beg _ _ => beg = true
  | .sortArray less => less = none
  | .equal _ => True
  | .contains _ _ => True
  | _ => False

end Spec
