import Verif.Proofs.Work
import Verif.Props.Parsing
/-!
C74 and C75: what Unmarshal costs.
-/
namespace JV
open Spec

/-! ### C74 -/

/-- Whatever the bytes are, whether they are JSON or not: Unmarshal copies and looks at them with at most nine accesses for each byte, and forty more. -/
theorem C74_linear (E : Env) (b : Bytes) : (unmarshalWork E b).ops ≤ 9 * b.length + 40 := by
  unfold unmarshalWork
  split
  · simp
  · have := iterWork_ops E b
    simp only [Work.ops_seq, Work.ops_tick]
    omega

/-- UnmarshalNoCopy: seven -/
theorem C74_noCopy (E : Env) (b : Bytes) : (noCopyWork E b).ops ≤ 7 * b.length + 40 := by
  unfold noCopyWork
  split
  · simp
  · exact iterWork_ops E b

/-- The bound has the right order: of a text that is accepted, no byte is left unread. -/
theorem C74_reads_all (E : Env) (b : Bytes) (v : V) (h : unmarshal E b = .ok v) :
    3 * b.length ≤ (unmarshalWork E b).ops ∧ b.length ≤ (noCopyWork E b).ops := by
  unfold unmarshal at h
  unfold unmarshalWork noCopyWork
  split at h
  · cases h
  · rename_i h0
    rw [if_neg h0, if_neg h0]
    have := iterWork_ge E b v h
    simp only [Work.ops_seq, Work.ops_tick]
    omega

/-- a text of 33 bytes; an escape, a float, an object in an array -/
example : ∃ v, unmarshal sampleEnv (asc "[ {\"a\\u0041\": 1.25}, true, null ]") = .ok v :=
  ⟨(match unmarshal sampleEnv (asc "[ {\"a\\u0041\": 1.25}, true, null ]") with | .ok v => v | _ => .nilp), by decide +kernel⟩
example : (unmarshalWork sampleEnv (asc "[ {\"a\\u0041\": 1.25}, true, null ]")).ops = 123 := by decide +kernel
/-- and one that is rejected at its end -/
example : (unmarshalWork sampleEnv (asc "[[[[\"aaaaaaaa\\")).ops = 63 := by decide +kernel

/-! ### C75 -/

/-- There is a number of nested calls that no text makes Unmarshal exceed. -/
def C75_statement : Prop := ∃ N : Nat, ∀ (E : Env) (b : Bytes), (unmarshalWork E b).depth ≤ N

/-- It is not so: `n` brackets that are closed again are accepted, with `n` calls on the stack, … -/
theorem C75_counterexample : ¬ C75_statement ∧ ∀ (E : Env) (n : Nat),
    let text := List.replicate (n + 1) 0x5B ++ List.replicate (n + 1) 0x5D
    (∃ v, unmarshal E text = .ok v ∧ nesting v = n + 1) ∧ (unmarshalWork E text).depth = n + 1 := by
  have key : ∀ (E : Env) (n : Nat),
      let text := List.replicate (n + 1) 0x5B ++ List.replicate (n + 1) 0x5D
      (∃ v, unmarshal E text = .ok v ∧ nesting v = n + 1) ∧ (unmarshalWork E text).depth = n + 1 := by
    intro E n
    have h1 := brackets_accepted E n
    refine ⟨⟨_, h1, brackets_nesting n⟩, ?_⟩
    have h2 := iterWork_depth E (List.replicate (n + 1) 0x5B ++ List.replicate (n + 1) 0x5D)
    rw [openings_brackets] at h2
    have h0 : (List.replicate (n + 1) (0x5B : UInt8) ++ List.replicate (n + 1) 0x5D).length ≠ 0 := by simp
    unfold unmarshal at h1
    rw [if_neg h0] at h1
    have h3 := h2.2 _ h1
    rw [brackets_nesting] at h3
    unfold unmarshalWork
    rw [if_neg h0]
    simp only [Work.depth_seq, Work.depth_tick]
    omega
  refine ⟨?_, key⟩
  rintro ⟨N, h⟩
  have := (key sampleEnv N).2
  have := h sampleEnv (List.replicate (N + 1) 0x5B ++ List.replicate (N + 1) 0x5D)
  omega

/-- … and `n` brackets that are not closed get as far before they are rejected. -/
theorem C75_unclosed (E : Env) (n : Nat) : (unmarshalWork E (List.replicate n 0x5B)).depth = n ∧ ¬ ∃ v, unmarshal E (List.replicate n 0x5B) = .ok v := by
  cases n with
  | zero => exact ⟨by simp [unmarshalWork], fun ⟨v, h⟩ => by simp [unmarshal] at h⟩
  | succ n =>
    have h0 : (List.replicate (n + 1) (0x5B : UInt8)).length ≠ 0 := by simp
    have hd := open_depth E n ((List.replicate (n + 1) (0x5B : UInt8)).length + 1) (by simp; omega)
    have hn : ∀ q, arrLoop E ((List.replicate (n + 1) (0x5B : UInt8)).length + 1) (List.replicate n 0x5B) [] ≠ .ok q := by
      intro q hq
      exact open_rejected E _ _ _ ⟨q, hq⟩
    unfold unmarshalWork unmarshal
    rw [if_neg h0, if_neg h0, iterWork, unmarshalWithIter]
    generalize (List.replicate (n + 1) (0x5B : UInt8)).length = l at *
    rw [List.replicate_succ, skipBlanks, if_neg (by decide)]
    simp only [valueWork, parseValue, if_neg (show ¬ (0x5B : UInt8) = 0x7B by decide), if_true, Work.depth_seq, Work.depth_tick, Work.depth_call, hd]
    cases hr : arrLoop E (l + 1) (List.replicate n 0x5B) [] with
    | ok q => exact absurd hr (hn q)
    | err e => exact ⟨by simp, fun ⟨v, h⟩ => by simp at h⟩
    | panic => exact ⟨by simp, fun ⟨v, h⟩ => by simp at h⟩
    | diverge => exact ⟨by simp, fun ⟨v, h⟩ => by simp at h⟩

/-- What holds: never more calls than opening brackets in the text (so a limit on those is a limit on the stack), and never less than the nesting of the value. -/
theorem C75_partial (E : Env) (b : Bytes) :
    (unmarshalWork E b).depth ≤ openings b ∧ openings b ≤ b.length ∧ ∀ v, unmarshal E b = .ok v → nesting v ≤ (unmarshalWork E b).depth := by
  refine ⟨?_, List.countP_le_length, ?_⟩
  · unfold unmarshalWork
    split
    · simp
    · simp only [Work.depth_seq, Work.depth_tick]
      have := (iterWork_depth E b).1
      omega
  · intro v h
    unfold unmarshal at h
    unfold unmarshalWork
    split at h
    · cases h
    · rename_i h0
      rw [if_neg h0]
      have := (iterWork_depth E b).2 v h
      simp only [Work.depth_seq, Work.depth_tick]
      omega

/-- the first value of the key is nested deeper than what is left, and a bracket in a string opens nothing -/
example : (unmarshalWork sampleEnv (asc "{\"a\":[[[]]],\"a\":[\"[\"]}")).depth = 4 ∧ openings (asc "{\"a\":[[[]]],\"a\":[\"[\"]}") = 6 := by decide +kernel

end JV
