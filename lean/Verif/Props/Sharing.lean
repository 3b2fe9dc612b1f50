import Verif.Proofs.Sharing
import Verif.Props.Heap
import Verif.Props.Size
import Verif.Props.MarshalWork
import Verif.Props.CompareWork
/-!
C95: a value that is in several places is written, and compared, once for each of them.
-/
namespace JV
open Spec

/-- C95 as stated: what Marshal has to write, and Equal to compare, is in proportion to the memory in use. It is false: see `C95_counterexample`. -/
def C95_statement : Prop := ∃ K : Nat, ∀ (E : Env) (h : Heap) (held : List Ptr), Program E h held → ∀ p ∈ held, ∀ n v, hread n h p = .ok v → weight v ≤ K * (memory h + 1)

theorem unshared_weight {h : Heap} {p : Ptr} {v : V} {F : List Nat} (hF : Hangs h p v F) (hn : F.Nodup) : weight v ≤ memory h + 1 := by
  have h1 := hangs_weight hF
  have h2 := sum_within (f := ownAt h) hn (hangs_mem hF)
  rw [← memory_eq] at h2
  split at h1 <;> omega

/-- It holds for a value that is made of separate values, each in one place. -/
theorem C95_partial (E : Env) (S : SortFn) (d : Opt) (opts : List MOpt) {h : Heap} {p : Ptr} {v : V} (hF : Forest h [(p, v)]) (hS : GoodSort S) :
    weight v ≤ memory h + 1 ∧
    ∀ b, Marshalable v → Her NumHasText v → (combineOptions d opts).indent = none → marshal E S d v opts = .ok (b, none) → b.length < 6 * (memory h + 1) := by
  obtain ⟨F, h1, h2⟩ := hF
  cases h1 with
  | cons p v F ps vs G h3 h4 =>
    cases h4
    rw [List.append_nil] at h2
    have h5 := unshared_weight h3 h2
    refine ⟨h5, fun b hv ht hi hm => ?_⟩
    simp only at h5
    have := C78_marshal E S d v opts b hS hv ht hi hm
    omega

/-- So it does for every program that stores each value in one place at most. -/
theorem C95_tidy (E : Env) {h : Heap} {roots : List (Ptr × V)} (ht : Tidy E h roots) : ∀ r ∈ roots, Forest h [r] ∧ weight r.2 ≤ memory h + 1 := by
  obtain ⟨F, h1, h2⟩ := tidy_forest ht
  clear ht
  induction roots generalizing F with
  | nil => intro r hr; cases hr
  | cons r roots ih =>
    cases h1 with
    | cons p v F ps vs G h3 h4 =>
      obtain ⟨n1, n2, n3⟩ := List.nodup_append.1 h2
      intro s hs
      rcases List.mem_cons.1 hs with rfl | hs
      · refine ⟨⟨F ++ [], .cons _ _ _ _ _ _ h3 .nil, by simpa using n1⟩, unshared_weight h3 n1⟩
      · exact ih _ h4 n2 s hs

/-- At the worst it is exponential in the memory in use. -/
theorem C95_worst (E : Env) {h : Heap} {held : List Ptr} (_hP : Program E h held) {p : Ptr} (_hp : p ∈ held) (n : Nat) (v : V) (hr : hread n h p = .ok v) :
    weight v ≤ 2 ^ memory h := by
  obtain ⟨F, hF⟩ := shows_of_read n hr
  rw [memory_eq]
  exact weight_worst _ (Nat.le_refl _) hF (hangs_mem hF)

theorem doubled_her {P : V → Prop} (hP : ∀ xs, P (.arr xs)) : ∀ n, Her P (doubled n)
  | 0 => her_of_kids (hP _) fun c hc => by cases (hc : c ∈ [])
  | n + 1 => her_of_kids (hP _) fun c hc => by
    have hc : c ∈ [doubled n, doubled n] := hc
    rw [show c = doubled n by simpa using hc]
    exact doubled_her hP n

theorem doubled_marshalable (n : Nat) : Marshalable (doubled n) :=
  ⟨doubled_her (fun _ => trivial) n, noNil_her (doubled_her (fun _ => by simp) n), by cases n <;> simp [doubled]⟩

theorem doubled_print {E : Env} {S : SortFn} {o : Opt} {T : Escaper} (ind : Option (Bytes × Bytes)) : ∀ (n d : Nat) (par : Option ParentInfo),
    5 * 2 ^ n ≤ ((doc E S o T (doubled n) par).print ind d).length + 3 ∧ (ind = none → ((doc E S o T (doubled n) par).print ind d).length + 3 = 5 * 2 ^ n)
  | 0, d, par => by simp [doubled, doc, Doc.print]
  | n + 1, d, par => by
    have ih := fun d par => doubled_print (E := E) (S := S) (o := o) (T := T) ind n d par
    have hp : 2 ^ (n + 1) = 2 * 2 ^ n := by rw [Nat.pow_succ]; omega
    rw [hp]
    simp only [doubled, doc, docElems, Doc.print, printElems, List.length_cons, List.length_nil, Nat.zero_add, if_true, if_false, List.length_append]
    constructor
    · have h1 := (ih (d + 1) (if o.lessFunc.isSome then some (newParentInfo (.arr [doubled n, doubled n]) par (intKey 0)) else none)).1
      have h2 := (ih (d + 1) (if o.lessFunc.isSome then some (newParentInfo (.arr [doubled n, doubled n]) par (intKey 1)) else none)).1
      simp [Doc.print, printElems]
      omega
    · rintro rfl
      have h1 := (ih (d + 1) (if o.lessFunc.isSome then some (newParentInfo (.arr [doubled n, doubled n]) par (intKey 0)) else none)).2 rfl
      have h2 := (ih (d + 1) (if o.lessFunc.isSome then some (newParentInfo (.arr [doubled n, doubled n]) par (intKey 1)) else none)).2 rfl
      simp [nl, Doc.print, printElems]
      omega

theorem doubled_equal (D : DecFn) (n : Nat) : equal D (doubled n) (doubled n) = true ∧ equalWork D (doubled n) (doubled n) + 1 = 2 ^ (n + 1) := by
  induction n with
  | zero => simp [doubled, equal, equalL, equalWork, equalWorkL]
  | succ n ih =>
    have hp : 2 ^ (n + 1 + 1) = 2 * 2 ^ (n + 1) := by rw [Nat.pow_succ]; omega
    constructor
    · simp [doubled, equal, equalL, ih.1]
    · simp only [doubled, equalWork, equalWorkL, ih.1, if_true, List.length_cons, List.length_nil]
      simp
      omega

/-- And so it can be: 3n + 1 calls, all of NewArray and Append, make a value that takes 4n + 2 bytes of memory and n + 1 nodes, and is written with 5 * 2^n - 3
bytes, and more with OptIndent. Marshal takes no less than one step for each of them, and Equal of the value with itself takes 2^(n + 1) - 1. -/
theorem C95_doubling (E : Env) (n : Nat) : ∃ ops h held, Calls E ops h held ∧ ops.length = 3 * n + 1 ∧ memory h = 4 * n + 2 ∧ h.length = n + 1 ∧
    ∃ p ∈ held, ∃ v k, hread k h p = .ok v ∧
      (∀ (S : SortFn) (d : Opt) (opts : List MOpt), ∃ b, marshal E S d v opts = .ok (b, none) ∧ 5 * 2 ^ n ≤ b.length + 3 ∧
        ((combineOptions d opts).indent = none → b.length + 3 = 5 * 2 ^ n) ∧
        (Unordered (combineOptions d opts) → 5 * 2 ^ n ≤ (marshalWork E (combineOptions d opts) v 0).ops + 3)) ∧
      ∀ D, equalWork D v v + 1 = 2 ^ (n + 1) := by
  obtain ⟨ops, held, h1, h2, h3⟩ := doubling_calls E n
  obtain ⟨F, hF⟩ := doubling_hangs (n := n) n (Nat.le_refl n)
  refine ⟨ops, _, held, h1, h2, doubling_memory n, doublingHeap_length n, some n, h3, doubled n, F.length + 1, hread_ok _ hF (by omega), ?_, fun D => (doubled_equal D n).2⟩
  intro S d opts
  have hm : marshal E S d (doubled n) opts = .ok (textOf E S d (doubled n) opts, none) := by
    rw [marshal_eq d (doubled_marshalable n)]
    cases n <;> rfl
  have hl := doubled_print (E := E) (S := S) (o := optOf d opts) (T := escOf d opts) (optOf d opts).indent n 0 none
  refine ⟨_, hm, hl.1, hl.2, fun ho => ?_⟩
  have := (marshal_paid ho (by omega) (linePaid_any _ _) hm).2
  have := hl.1
  unfold textOf at *
  omega

theorem C95_counterexample : ¬ C95_statement := by
  rintro ⟨K, hK⟩
  obtain ⟨ops, held, h1, h2, h3⟩ := doubling_calls sampleEnv (K + 4)
  obtain ⟨F, hF⟩ := doubling_hangs (n := K + 4) (K + 4) (Nat.le_refl _)
  have h4 := hK sampleEnv _ held (calls_program h1) _ h3 _ _ (hread_ok (F.length + 1) hF (by omega))
  rw [doubled_weight, doubling_memory] at h4
  have grow : ∀ K : Nat, K * (4 * (K + 4) + 2 + 1) + 3 ≤ 2 ^ (K + 4 + 2) := by
    intro K
    induction K with
    | zero => decide
    | succ K ih =>
      have e : 2 ^ (K + 1 + 4 + 2) = 2 * 2 ^ (K + 4 + 2) := by rw [show K + 1 + 4 + 2 = (K + 4 + 2) + 1 by omega, Nat.pow_succ, Nat.mul_comm]
      have lin : ∀ K : Nat, 8 * K + 23 ≤ 2 ^ (K + 4 + 2) := by
        intro K
        induction K with
        | zero => decide
        | succ K ih => rw [show K + 1 + 4 + 2 = (K + 4 + 2) + 1 by omega, Nat.pow_succ]; generalize 2 ^ (K + 4 + 2) = X at *; omega
      have := lin K
      rw [e]
      grind
  have := grow K
  omega

/-- a value with sharing: it weighs 14, the memory 10 -/
example : ∃ v, hread 3 (doublingHeap 2) (some 2) = .ok v ∧ weight v = 14 ∧ memory (doublingHeap 2) = 10 := ⟨_, rfl, rfl, by decide +kernel⟩

/-- a program without: `v := NewArray(); v.Append("ab").InTheEnd()` -/
example : Tidy sampleEnv [.arr [some 1], .str (asc "ab")] [(some 0, .arr [.str (asc "ab")])] ∧ memory [.arr [some 1], .str (asc "ab")] = 7 := by
  have h1 := Tidy.new (E := sampleEnv) _ _ (.arr []) .start
  have h2 := Tidy.new _ _ (.str (asc "ab")) h1
  have h3 := Tidy.perm _ _ _ h2 (List.Perm.swap _ _ _)
  have h4 := Tidy.put _ _ _ _ _ _ [] _ (.arr []) (.append false) [] [.idx 0] h3 (.here _) rfl (by decide +kernel)
  exact ⟨h4, by decide +kernel⟩

end JV
