import Verif.Proofs.KeyPathSlice
import Verif.Props.Order
/-!
C48 with key paths as Go slices: however `append` allocates, sibling paths that share storage never show in the output; a path kept by the
less function beyond its call may change.
-/
namespace JV
open Spec

/-- Whatever capacities `append` chooses, and whatever the less function answers, Marshal writes what it would write if every path were a
list of its own: no path is overwritten before its last use. -/
theorem C48_shared_storage (E : Env) (S : SortFn) (d : Opt) (grow : Nat → Nat) (v : V) (opts : List MOpt) (hS : GoodSort S) :
    (marshalP E S d grow v opts >>= fun r => .ok r.1) = marshal E S d v opts :=
  marshalP_eq E S hS d grow v opts

/-- the value {"a":{"b":{"c":{"d":{"x":null},"e":{"x":null}}}}} -/
def deepSample : V :=
  let leaf : V := .obj 1 [⟨asc "x", 1, .null⟩] none
  .obj 1 [⟨asc "a", 1, .obj 1 [⟨asc "b", 1, .obj 1 [⟨asc "c", 1, .obj 2 [⟨asc "d", 1, leaf⟩, ⟨asc "e", 2, leaf⟩] none⟩] none⟩] none⟩] none

/-- the calls of the less function on `deepSample`, with arrays that double -/
def deepLog : R (List (List Key × List Key)) :=
  marshalP sampleEnv insertionSort emptyOptions (fun n => 2 * n) deepSample [.less (some defaultStringSequence)] >>= fun r =>
    .ok (r.2.log.map fun p => (p.2, match p.1 with | some s => s.view r.2.mem | none => []))

/-- a path kept by the less function stays as it was -/
def C48_kept_statement : Prop := ∀ (E : Env) (S : SortFn) (d : Opt) (grow : Nat → Nat) (v : V) (opts : List MOpt) (b : Bytes × Option Err) (st : PSt),
  GoodSort S → marshalP E S d grow v opts = .ok (b, st) → ∀ s p, (some s, p) ∈ st.log → s.view st.mem = p

/-- It does not: the less function was called with [a b c d], and once Marshal is through, the slice it got reads [a b c e]. -/
theorem C48_kept_counterexample : ¬ C48_kept_statement := by
  intro h
  have hlog : (match marshalP sampleEnv insertionSort emptyOptions (fun n => 2 * n) deepSample [.less (some defaultStringSequence)] with
      | .ok r => decide (∃ x ∈ r.2.log, ∃ s ∈ x.1, s.view r.2.mem ≠ x.2)
      | _ => false) = true := by decide +kernel
  cases hr : marshalP sampleEnv insertionSort emptyOptions (fun n => 2 * n) deepSample [.less (some defaultStringSequence)] with
  | ok r =>
    obtain ⟨b, st⟩ := r
    rw [hr] at hlog
    obtain ⟨⟨s, p⟩, hm, s', hs, hne⟩ := of_decide_eq_true hlog
    cases hs
    exact hne (h _ _ _ _ _ _ b st insertionSort_good hr _ _ hm)
  | err e => rw [hr] at hlog; exact absurd hlog Bool.false_ne_true
  | panic => rw [hr] at hlog; exact absurd hlog (by decide)
  | diverge => rw [hr] at hlog; exact absurd hlog (by decide)

-- the first list is the path at the time of the call, the second what the same slice reads in the end
example : deepLog = .ok ([([], []), ([asc "a"], [asc "a"]), ([asc "a", asc "b"], [asc "a", asc "b"]), ([asc "a", asc "b", asc "c"], [asc "a", asc "b", asc "c"]),
    ([asc "a", asc "b", asc "c", asc "d"], [asc "a", asc "b", asc "c", asc "e"]), ([asc "a", asc "b", asc "c", asc "e"], [asc "a", asc "b", asc "c", asc "e"])].map
    fun p => (p.1.map stringKey, p.2.map stringKey)) := by decide +kernel
-- the text is right
example : (marshalP sampleEnv insertionSort emptyOptions (fun n => 2 * n) deepSample [.less (some defaultStringSequence)] >>= fun r => .ok r.1) =
    .ok (asc "{\"a\":{\"b\":{\"c\":{\"d\":{\"x\":null},\"e\":{\"x\":null}}}}}", none) := by decide +kernel

end JV
