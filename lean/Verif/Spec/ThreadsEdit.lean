import Verif.Model.ThreadsPath
import Verif.Model.Modify
import Verif.Spec.ThreadsSame
/-!
Code that makes changes to a value, one after the other.
-/
namespace Spec
open JV

/-- `v.Set(u).At(q)`, `v.Insert(u).Before(q)` and `After(q)`, `v.Append(u).InTheBeginning()` and `InTheEnd()`, `v.Delete(q)`; `u` is made for the call -/
inductive Alter where
  | set (u : V) (q : Param)
  | insert (after : Bool) (u : V) (q : Param)
  | append (beginning : Bool) (u : V)
  | delete (q : Param)

/-- the call, as code of the goroutine -/
def Alter.act (E : Env) (p : Ptr) : Alter → Act Ptr
  | .set u q => (aBuild u).onOk fun c => aSetAt E p c [q]
  | .insert after u q => (aBuild u).onOk fun c => aInsertAt E after p c [] [q]
  | .append beginning u => (aBuild u).onOk fun c => aAppendAt E beginning p c []
  | .delete q => aDeleteAt E false p [] [q]

/-- the value after the call -/
def Alter.result (E : Env) (t : V) : Alter → V
  | .set u q => (JV.set E t ⟨u, none⟩ [q]).1
  | .insert after u q => (JV.insert E after t ⟨u, none⟩ [q]).1
  | .append beginning u => (JV.append E beginning t ⟨u, none⟩ []).1
  | .delete q => (JV.delete E false t [q]).1

/-- the parameter is no slice, and no object of the new document has a lower case index yet -/
def Alter.Fresh : Alter → Prop
  | .set u q => q.isSlice = false ∧ noIndex u = u
  | .insert _ u q => q.isSlice = false ∧ noIndex u = u
  | .append _ u => noIndex u = u
  | .delete q => q.isSlice = false

/-- one call after the other; errors are ignored (so are panics, as with recover) -/
def aEdits (E : Env) (p : Ptr) : List Alter → Act Unit
  | [] => .ret (.ok ())
  | e :: l => (e.act E p).andThen fun _ => aEdits E p l

/-- the value after these calls -/
def edited (E : Env) (t : V) : List Alter → V
  | [] => t
  | e :: l => edited E (e.result E t) l

/-- `v.Set(u).At(ps...)` for each of these, with a new document `u` and any path; errors are ignored -/
def aSets (E : Env) (p : Ptr) : List (V × List Param) → Act Unit
  | [] => .ret (.ok ())
  | (u, ps) :: l => ((aBuild u).onOk fun c => aSetAt E p c ps).andThen fun _ => aSets E p l

/-- the value after these calls -/
def setAll (E : Env) (t : V) : List (V × List Param) → V
  | [] => t
  | (u, ps) :: l => setAll E (JV.set E t ⟨u, none⟩ ps).1 l

/-- `v.Set(u).At(ps...)`, `v.Insert(u).Before(ps...)` and `After(ps...)`, `v.Append(u).InTheBeginning(ps...)` and `InTheEnd(ps...)`,
`v.Delete(ps...)`, with any path; `u` is made for the call -/
inductive PathEdit where
  | set (u : V) (ps : List Param)
  | insert (after : Bool) (u : V) (ps : List Param)
  | append (beginning : Bool) (u : V) (ps : List Param)
  | delete (ps : List Param)

/-- the call, as code of the goroutine -/
def PathEdit.act (E : Env) (p : Ptr) : PathEdit → Act Ptr
  | .set u ps => (aBuild u).onOk fun c => aSetAt E p c ps
  | .insert after u ps => (aBuild u).onOk fun c => aInsertAt E after p c [] ps
  | .append beginning u ps => (aBuild u).onOk fun c => aAppendAt E beginning p c ps
  | .delete ps => aDeleteAt E false p [] ps

/-- the value after the call -/
def PathEdit.result (E : Env) (t : V) : PathEdit → V
  | .set u ps => (JV.set E t ⟨u, none⟩ ps).1
  | .insert after u ps => (JV.insert E after t ⟨u, none⟩ ps).1
  | .append beginning u ps => (JV.append E beginning t ⟨u, none⟩ ps).1
  | .delete ps => (JV.delete E false t ps).1

/-- no object of the new document has a lower case index yet -/
def PathEdit.NewDoc : PathEdit → Prop
  | .set u _ => noIndex u = u
  | .insert _ u _ => noIndex u = u
  | .append _ u _ => noIndex u = u
  | .delete _ => True

/-- one call after the other; errors are ignored (so are panics, as with recover) -/
def aPathEdits (E : Env) (p : Ptr) : List PathEdit → Act Unit
  | [] => .ret (.ok ())
  | x :: l => (x.act E p).andThen fun _ => aPathEdits E p l

/-- the value after these calls -/
def pathEdited (E : Env) (t : V) : List PathEdit → V
  | [] => t
  | x :: l => pathEdited E (x.result E t) l

end Spec
