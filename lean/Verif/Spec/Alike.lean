import Verif.Spec.Compare
import Verif.Spec.Path
import Verif.Model.Modify
/-!
Values that a program cannot tell apart by moving around in them and changing them.
-/
namespace Spec
open JV

/-- Two values built alike from values related by `L`: arrays element by element; objects (with distinct keys) with the same keys, member by member,
whatever their order, numbering and index of lower-cased keys. -/
inductive Alike (L : V → V → Prop) : V → V → Prop
  | leaf (v w : V) : L v w → Alike L v w
  | arr (xs ys : List V) : xs.length = ys.length → (∀ (i : Nat) x y, xs[i]? = some x → ys[i]? = some y → Alike L x y) → Alike L (.arr xs) (.arr ys)
  | obj (n kvs low n' kvs' low') : KeysNodup (.obj n kvs low) → KeysNodup (.obj n' kvs' low') →
      (∀ k, (members (.obj n kvs low) k).isSome = (members (.obj n' kvs' low') k).isSome) →
      (∀ k c c', members (.obj n kvs low) k = some c → members (.obj n' kvs' low') k = some c' → Alike L c c') →
      Alike L (.obj n kvs low) (.obj n' kvs' low')

/-- `L` relates values without parts only, and nil and NotExist only to themselves. -/
structure LeafRel (L : V → V → Prop) : Prop where
  left : ∀ v w, L v w → IsScalar v
  right : ∀ v w, L v w → IsScalar w
  nilp : ∀ v w, L v w → (v = .nilp ↔ w = .nilp)
  notExist : ∀ v w, L v w → (v = .notExist ↔ w = .notExist)

/-- a change through the API: Set(ch).At(ps…), Insert(ch).Before or After(ps…), Append(ch).InTheBeginning or InTheEnd(ps…), Delete(ps…) -/
inductive Change where
  | set (ch : Ch) (ps : List Param)
  | insert (after : Bool) (ch : Ch) (ps : List Param)
  | append (beg : Bool) (ch : Ch) (ps : List Param)
  | delete (ps : List Param)

/-- the call: the value afterwards, and the error, the panic, or where the child is -/
def Change.run (E : Env) (v : V) : Change → V × R (Option (List Step))
  | .set ch ps => ((JV.set E v ch ps).1, some <$> (JV.set E v ch ps).2)
  | .insert after ch ps => ((JV.insert E after v ch ps).1, some <$> (JV.insert E after v ch ps).2)
  | .append beg ch ps => ((JV.append E beg v ch ps).1, some <$> (JV.append E beg v ch ps).2)
  | .delete ps => ((JV.delete E false v ps).1, (fun _ => none) <$> (JV.delete E false v ps).2)

/-- one change after the other: the value in the end, and what each of them returned -/
def changes (E : Env) (v : V) : List Change → V × List (R (Option (List Step)))
  | [] => (v, [])
  | c :: cs => ((changes E (c.run E v).1 cs).1, (c.run E v).2 :: (changes E (c.run E v).1 cs).2)

/-- children with the same import error, or related by `P` -/
def ChAlike (P : V → V → Prop) (a b : Ch) : Prop := a.err = b.err ∧ (a.err = none → P a.c b.c)

/-- the same change with children related by `P` -/
inductive ChangeAlike (P : V → V → Prop) : Change → Change → Prop
  | set (a b ps) : ChAlike P a b → ChangeAlike P (.set a ps) (.set b ps)
  | insert (after a b ps) : ChAlike P a b → ChangeAlike P (.insert after a ps) (.insert after b ps)
  | append (beg a b ps) : P a.c b.c → ChangeAlike P (.append beg a ps) (.append beg b ps)
  | delete (ps) : ChangeAlike P (.delete ps) (.delete ps)

/-- the same sequence of changes, with children related by `P` -/
inductive ProgAlike (P : V → V → Prop) : List Change → List Change → Prop
  | nil : ProgAlike P [] []
  | cons (a b as bs) : ChangeAlike P a b → ProgAlike P as bs → ProgAlike P (a :: as) (b :: bs)

/-- both calls panic (or would never return), both give the same error, or both succeed with related results -/
inductive ResAlike {α β : Type} (P : α → β → Prop) : R α → R β → Prop
  | ok (a b) : P a b → ResAlike P (.ok a) (.ok b)
  | err (e) : ResAlike P (.err e) (.err e)
  | panic : ResAlike P .panic .panic
  | diverge : ResAlike P .diverge .diverge

end Spec
