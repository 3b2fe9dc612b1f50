import Verif.Proofs.OptionAlias
import Verif.Props.Order
/-! C100: options and the slices they were made of. -/
namespace JV
open Spec

/-- C100 in full: options are values. Every Marshal call gives what the options said when they were made. -/
def C100_statement : Prop := ∀ (E : Env) (S : SortFn) (mem : SeqMem) (cs : List OptCall), optRun E S { mem := mem } cs = optExpect E S mem [] emptyOptions cs

/-- It holds for programs that do not write to a slice again once they have made an option with it. -/
theorem C100_partial (E : Env) (S : SortFn) (mem : SeqMem) (cs : List OptCall) (h : HandsOff [] cs) :
    optRun E S { mem := mem } cs = optExpect E S mem [] emptyOptions cs :=
  optRun_expect E S cs mem [] {} [] (fun _ h => by cases h) nofun h

/-- For all programs: every Marshal call gives what it would give if all its options, and those of the last SetDefaultMarshalOptions, were made again
just before it. -/
theorem C100_late (E : Env) (S : SortFn) (mem : SeqMem) (cs : List OptCall) : optRun E S { mem := mem } cs = optLate E S mem [] none cs :=
  optRun_late E S cs mem [] {} none fun _ => rfl

/-- `{"a":null,"b":null}` -/
def abObject : V := .obj 2 [⟨asc "a", 1, .null⟩, ⟨asc "b", 2, .null⟩] none

/-- `seq := []string{"b", "a"}; SetDefaultMarshalOptions(OptKeySequence(seq)); v.Marshal(); seq[0] = "a"; seq[1] = "b"; v.Marshal()` -/
def reuseSlice : List OptCall :=
  [.make (.keySeq 0), .setDefault [0], .marshal abObject [], .write 0 0 (asc "a"), .write 0 1 (asc "b"), .marshal abObject []]

/-- the two texts differ although the defaults were set once -/
theorem C100_reuse : optRun sampleEnv insertionSort { mem := [[asc "b", asc "a"]] } reuseSlice =
    [.ok (asc "{\"b\":null,\"a\":null}", none), .ok (asc "{\"a\":null,\"b\":null}", none)] := by decide +kernel

theorem C100_counterexample : ¬ C100_statement := by
  intro h
  have := h sampleEnv insertionSort [[asc "b", asc "a"]] reuseSlice
  rw [C100_reuse] at this
  exact absurd this (by decide +kernel)

/-- a program that does not write to its slice again, with an option of its own at the second call -/
example : HandsOff [] [.write 0 0 (asc "b"), .make (.keySeq 0), .make (.plain .setSeq), .setDefault [0], .marshal abObject [], .marshal abObject [1]] ∧
    optRun sampleEnv insertionSort { mem := [[asc "x", asc "a"]] }
      [.write 0 0 (asc "b"), .make (.keySeq 0), .make (.plain .setSeq), .setDefault [0], .marshal abObject [], .marshal abObject [1]] =
    [.ok (asc "{\"b\":null,\"a\":null}", none), .ok (asc "{\"a\":null,\"b\":null}", none)] := by
  refine ⟨by simp [HandsOff], by decide +kernel⟩

end JV
