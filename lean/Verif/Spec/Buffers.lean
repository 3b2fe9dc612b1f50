import Verif.Model.Buffers
/-!
What may be done to byte slices without changing a value.
-/
namespace Spec
open JV

/-- the operation does not write into a slice that was given to UnmarshalNoCopy before; values are made of existing texts -/
def Polite (st : BufSt) : BufOp → Prop
  | .write r _ _ => r ∉ st.lent
  | .unmarshalNoCopy r => r ∉ st.lent
  | .build w => ∀ r ∈ w.refs, ∃ v ∈ st.vals, r ∈ v.refs
  | _ => True

/-- the execution of some operations, all of them polite -/
inductive PoliteRun (E : Env) (junk : Bytes → Bytes) : BufSt → List BufOp → BufSt → Prop
  | nil (st : BufSt) : PoliteRun E junk st [] st
  | cons (st : BufSt) (o : BufOp) (os : List BufOp) (st' : BufSt) (h : Polite st o) (hr : PoliteRun E junk (st.step E junk o) os st') :
    PoliteRun E junk st (o :: os) st'

/-- the operation is none of the caller's writes and no UnmarshalNoCopy -/
def LeavesAlone (r : Nat) : BufOp → Prop
  | .write r' _ _ => r' ≠ r
  | .unmarshalNoCopy r' => r' ≠ r
  | _ => True

/-- UnmarshalNoCopy is not called -/
def Copies : BufOp → Prop
  | .unmarshalNoCopy _ => False
  | _ => True

/-- values are put together from existing texts -/
def Assembles (st : BufSt) : BufOp → Prop
  | .build w => ∀ r ∈ w.refs, ∃ v ∈ st.vals, r ∈ v.refs
  | _ => True

/-- any execution -/
inductive AnyRun (E : Env) (junk : Bytes → Bytes) : BufSt → List BufOp → BufSt → Prop
  | nil (st : BufSt) : AnyRun E junk st [] st
  | cons (st : BufSt) (o : BufOp) (os : List BufOp) (st' : BufSt) (h : Assembles st o) (hr : AnyRun E junk (st.step E junk o) os st') :
    AnyRun E junk st (o :: os) st'

end Spec
