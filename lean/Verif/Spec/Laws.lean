import Verif.Spec.Order
import Verif.Spec.Path
import Verif.Model.Modify
/-!
Edits at different places.
-/
namespace Spec
open JV

/-- The locations go to different members of one object or to different elements of one array. -/
inductive Siblings : List Step → List Step → Prop
  | key (j k l m) : j ≠ k → Siblings (.key j :: l) (.key k :: m)
  | idx (i j l m) : i ≠ j → Siblings (.idx i :: l) (.idx j :: m)
  | deeper (s l m) : Siblings l m → Siblings (s :: l) (s :: m)

/-- an edit of a value somewhere below: Set(ch).At(…, q, qs…), Delete(…, q, qs…), Append(ch).InTheEnd or InTheBeginning(…, q, qs…),
Insert(ch).Before or After(…, rest…, p), `…` being the way to that value -/
inductive Edit where
  | set (ch : Ch) (q : Param) (qs : List Param)
  | delete (q : Param) (qs : List Param)
  | append (beg : Bool) (ch : Ch) (q : Param) (qs : List Param)
  | insert (after : Bool) (ch : Ch) (rest : List Param) (p : Param)

/-- the call on `v`, with the way `pre` in front of the path: the value afterwards, and the error or the location of the child, if there is one -/
def Edit.run (E : Env) (v : V) (pre : List Param) : Edit → V × R (Option (List Step))
  | .set ch q qs => ((JV.set E v ch (pre ++ q :: qs)).1, some <$> (JV.set E v ch (pre ++ q :: qs)).2)
  | .delete q qs => ((JV.delete E false v (pre ++ q :: qs)).1, (fun _ => none) <$> (JV.delete E false v (pre ++ q :: qs)).2)
  | .append beg ch q qs => ((JV.append E beg v ch (pre ++ q :: qs)).1, some <$> (JV.append E beg v ch (pre ++ q :: qs)).2)
  | .insert after ch rest p => ((JV.insert E after v ch (pre ++ (rest ++ [p]))).1, some <$> (JV.insert E after v ch (pre ++ (rest ++ [p]))).2)

/-- the edit of `a`: no parameter before the last one is a slice; Append and Insert need an existing value, Insert with a single parameter an array -/
def Edit.Fits (a : V) : Edit → Prop
  | .set _ q _ => q.isSlice = false
  | .delete q qs => Plain (q :: qs)
  | .append _ _ q _ => q.isSlice = false ∧ a.uninit = false
  | .insert _ _ rest _ => Plain rest ∧ a.uninit = false ∧ (rest = [] → ∃ xs, a = .arr xs)

end Spec
