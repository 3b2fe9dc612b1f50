import Verif.Proofs.ArrayWork
/-! C103: what changing an array costs over a history. -/
namespace JV
open Spec

variable {α : Type}

/-- **C103**: any history of changes of an array writes no more elements than seven for each call, those behind the
place of each insertion and deletion, and once those the array had at the start. -/
theorem C103 [HasNil α] (grow : Nat → Nat) (hg : GoodGrow grow) (a : ArrV α) (hw : WFArr a) (os : List (SliceOp α)) :
    a.opsW grow os ≤ 7 * os.length + behindAll a.len os + a.len := by
  have h := ops_work hg os hw
  have hr := wf_cells hw
  unfold creditOf at h
  omega

/-- the growth of Go's slices is as the theorem asks, whatever it is rounded up to -/
theorem C103_growth (g : Nat → Nat) (h : ∀ n, goGrow n ≤ g n) : GoodGrow g := by
  constructor
  · intro n
    have := h n
    unfold goGrow at this
    split at this
    · omega
    · split at this <;> omega
  · intro n
    have := h n
    unfold goGrow at this
    split at this
    · omega
    · split at this <;> omega

/-- a history that changes only the end of an array of length `n` -/
def atEnd (n : Nat) : List (SliceOp α) → Prop
  | [] => True
  | o :: os => behind n o = 0 ∧ atEnd (lenAfter n o) os

/-- As a stack, an array costs a constant for each call. -/
theorem C103_stack [HasNil α] (grow : Nat → Nat) (hg : GoodGrow grow) (a : ArrV α) (hw : WFArr a) (os : List (SliceOp α))
    (h : atEnd a.len os) : a.opsW grow os ≤ 7 * os.length + a.len := by
  have h0 : ∀ (os : List (SliceOp α)) (n : Nat), atEnd n os → behindAll n os = 0 := by
    intro os
    induction os with
    | nil => intro n _; rfl
    | cons o os ih => intro n h; simp only [behindAll, h.1, ih _ h.2]
  have := C103 grow hg a hw os
  rw [h0 os a.len h] at this
  omega

/-- What lies behind has to be moved: no change writes less. -/
theorem C103_least (a : ArrV α) (o : SliceOp α) : behind a.len o ≤ a.opW o := by
  cases o <;> simp only [behind, ArrV.opW] <;> omega

/-- As a queue, an array costs its length for each element taken from the front. -/
theorem C103_queue [HasNil α] (grow : Nat → Nat) (hg : GoodGrow grow) : ∀ (n : Nat) (a : ArrV α), WFArr a → a.len = n →
    2 * a.opsW grow (List.replicate n (.delete 0)) = n * (n + 1)
  | 0, a, _, _ => by simp [ArrV.opsW]
  | n + 1, a, hw, hn => by
    obtain ⟨h1, -⟩ := op_work hg hw (.delete 0)
    rw [List.replicate_succ]
    simp only [ArrV.opsW]
    have ht := tracks_op grow hw (.delete 0)
    rcases ht with ⟨b, hb, -⟩ | ⟨-, hl⟩
    · rw [hb]
      obtain ⟨g1, g2, -⟩ := h1 b hb
      have ih := C103_queue grow hg n b g1 (by rw [g2]; simp only [lenAfter]; omega)
      have e : a.opW (.delete 0) = n + 1 := by simp only [ArrV.opW]; omega
      simp only [e]
      have e2 : (n + 1) * (n + 1 + 1) = 2 * (n + 1) + n * (n + 1) := by
        rw [Nat.mul_comm (n + 1) (n + 1 + 1), Nat.add_mul (n) 2 (n + 1)]; omega
      omega
    · exfalso
      have hv := view_length hw
      revert hl
      simp only [listOp]
      rw [if_pos (by omega)]
      intro h; cases h

/-- an array of capacity 1 that is full -/
def workArr : ArrV V := { mem := [[.null]], arr := 0, len := 1 }

/-- a stack: the second element needs a larger array (2 elements written), the third fits, two are taken away -/
example : WFArr workArr ∧ atEnd workArr.len [SliceOp.append V.null, .append (.bool true), .delete 2, .delete 1] ∧
    workArr.opsW (fun n => 4 * n + 1) [.append .null, .append (.bool true), .delete 2, .delete 1] = 5 :=
  ⟨⟨_, rfl, by decide⟩, ⟨rfl, rfl, rfl, rfl, trivial⟩, by rfl⟩
example : GoodGrow goGrow := C103_growth goGrow fun _ => Nat.le_refl _

end JV
