import Verif.Proofs.PredictBad
import Verif.Proofs.Channel
import Verif.Props.Parsing
/-! C35, C36, C37: concurrent `Unmarshal`, the arena, and the channel iterators. -/
namespace JV
open Spec

/-! ### C36 -/

/-- The nodes of a parsed document: whatever the arena size, the parse gives the JSON value of `Unmarshal` (or its error), every position of
the document is held by a Go object of its own, and every arena slot used lies within the arena. -/
theorem C36_no_sharing (E : Env) (cnt : Nat) (b : Bytes) (hb : b ≠ []) :
    ((parseIn E cnt b).1 >>= fun x => .ok x.toV) = unmarshal E b ∧
    ∀ v, (parseIn E cnt b).1 = .ok v → NoSharing v ∧ ∀ p x i, At v p x → nodeOf x = .slot i → i < (parseIn E cnt b).2.len := by
  refine ⟨?_, fun v hv => ?_⟩
  · rw [parseIn_forget, unmarshal, if_neg]
    cases b <;> simp_all
  · obtain ⟨h1, h2, h3⟩ := parseIn_fine E cnt b
    obtain ⟨h4, h5⟩ := h3 v hv
    refine ⟨noSharing_of_nodup h4, fun p x i hat hx => ?_⟩
    have h6 := h5 _ (at_node_mem hat)
    rw [hx] at h6
    have e1 : (parseIn E cnt b).2.len = cnt := h1.1
    have e2 : (parseIn E cnt b).2.count = cnt := h1.2.1
    have := h6.2
    omega

/-- The requests made by one parse, answered or not by the arena, are at most the bytes of the text, also when the text is refused. -/
theorem C36_requests (E : Env) (cnt : Nat) (b : Bytes) : (parseIn E cnt b).2.actual ≤ b.length := (parseIn_fine E cnt b).2.1

/-- two values in the arena, the others outside, a repeated key -/
example : ∃ v, (parseIn sampleEnv 2 (asc "{\"a\":[1,\"x\"],\"a\":{\"b\":null},\"c\":true}")).1 = .ok v ∧
    (∃ x, At v [1] x ∧ nodeOf x = .fresh 4) ∧ (∃ x, At v [0, 0] x ∧ nodeOf x = .fresh 3) ∧ nodeOf v = .slot 0 := by
  refine ⟨.obj (.slot 0) 3 [(asc "a", 2, .obj (.fresh 2) 1 [(asc "b", 1, .leaf (.fresh 3) .null)]), (asc "c", 3, .leaf (.fresh 4) (.bool true))],
    by rfl, ⟨_, .member (k := asc "c") rfl (.here _), rfl⟩, ⟨_, .member (k := asc "a") rfl (.member (k := asc "b") rfl (.here _)), rfl⟩, rfl⟩

/-! ### C35 -/

/-- C35 as stated: no call ever panics. False: see `C35_counterexample`. -/
def C35_statement : Prop := ∀ (E : Env) (p : Proc), Reach E p → (∀ th ∈ p.threads, th.input.length < 2^31) → ∀ th ∈ p.threads, th.pc ≠ .panicked

/-- In every interleaving of any number of calls, a call that has returned has the result of `Unmarshal` on its own input. -/
theorem C35_results (E : Env) (p : Proc) (h : Reach E p) (th : Thread) (hth : th ∈ p.threads) (r : R NV) (hr : th.pc = .done r) :
    (r >>= fun x => .ok x.toV) = unmarshal E th.input := by
  obtain ⟨h0, -, h2⟩ := reach_ok h th hth
  rw [hr] at h2
  simp only at h2
  rw [h2]
  exact (C36_no_sharing E _ _ h0).1

/-- In every interleaving no call pre-allocates more values than its input has bytes. -/
theorem C35_prealloc (E : Env) (p : Proc) (h : Reach E p) (th : Thread) (hth : th ∈ p.threads) : th.cnt ≤ th.input.length :=
  (reach_ok h th hth).2.1

/-- In every interleaving of any number of calls on inputs below 2 GiB no call panics, as long as the inputs that are not objects or arrays
have at most 2 GiB in total. There is no bound on the objects and arrays. -/
theorem C35_no_panic_partial (E : Env) (p : Proc) (h : Reach E p) (hlen : ∀ th ∈ p.threads, th.input.length < 2^31) (hbare : totalBare p ≤ 2^31)
    (th : Thread) (hth : th ∈ p.threads) : th.pc ≠ .panicked := by
  intro hpc
  have := (procOk_reach h hlen hbare).pcs th hth
  rw [hpc] at this
  exact this

/-- Calls on nothing but the texts `null` and `1`, one after another, bring the predictor to 0; from then on any call panics. -/
theorem C35_counterexample_any (E : Env) (b : Bytes) (hb : b ≠ []) : ∃ p th, Reach E p ∧ th ∈ p.threads ∧ th.input = b ∧ th.pc = .panicked ∧
    ∀ x ∈ p.threads, x.input = asc "null" ∨ x.input = asc "1" ∨ x = th := panics E b hb

theorem C35_counterexample : ¬ C35_statement := by
  intro h
  obtain ⟨p, th, h1, h2, h3, h4, h5⟩ := C35_counterexample_any sampleEnv (asc "{}") (by decide)
  refine h sampleEnv p h1 (fun x hx => ?_) th h2 h4
  rcases h5 x hx with h | h | rfl
  · rw [h]; decide
  · rw [h]; decide
  · rw [h3]; decide

/-- and the process does not recover: after such calls, all returned, no later call ever returns, whatever its input and the interleaving -/
theorem C35_counterexample_forever (E : Env) : ∃ p, Reach E p ∧
    (∀ th ∈ p.threads, (th.input = asc "null" ∨ th.input = asc "1") ∧ ∃ r, th.pc = .done r) ∧
    ∀ q, PSteps E p q → ∀ i th, p.threads.length ≤ i → q.threads[i]? = some th → ∀ r, th.pc ≠ .done r := by
  obtain ⟨ths, hall, hr⟩ := phase4 E
  refine ⟨⟨⟨0#64, 1#64⟩, ths⟩, hr, hall, ?_⟩
  have key : ∀ q, PSteps E ⟨⟨0#64, 1#64⟩, ths⟩ q → q.sh = ⟨0#64, 1#64⟩ ∧ ths.length ≤ q.threads.length ∧
      (∀ (i : Nat) th, q.threads[i]? = some th → if i < ths.length then ∃ r, th.pc = .done r else th.pc = .start ∨ th.pc = .readCalc ∨ th.pc = .panicked) := by
    intro q hq
    induction hq with
    | refl =>
      refine ⟨rfl, Nat.le_refl _, fun i th hi => ?_⟩
      have hlt : i < ths.length := (List.getElem?_eq_some_iff.mp hi).1
      rw [if_pos hlt]
      exact (hall th (List.mem_of_getElem? hi)).2
    | step hs hst ih =>
      obtain ⟨h1, h2, h3⟩ := ih
      cases hst with
      | call b hb =>
        refine ⟨h1, by simp; omega, fun i th hi => ?_⟩
        simp only [List.getElem?_append] at hi
        split at hi
        · exact h3 i th hi
        · rw [if_neg (by omega)]
          have : th = { input := b } := by
            have := List.mem_of_getElem? hi
            simpa using this
          subst this; exact .inl rfl
      | move j t t' sh' hj hstep =>
        have hpc := h3 j t hj
        by_cases hlt : j < ths.length
        · rw [if_pos hlt] at hpc
          obtain ⟨r, hr⟩ := hpc
          simp [stepThread, hr] at hstep
        · rw [if_neg hlt] at hpc
          rcases hpc with hpc | hpc | hpc
          · simp only [stepThread, hpc, h1] at hstep
            rw [if_neg (by decide)] at hstep
            simp only [Option.some.injEq, Prod.mk.injEq] at hstep
            obtain ⟨rfl, rfl⟩ := hstep
            refine ⟨rfl, by simpa using h2, fun i th hi => ?_⟩
            simp only [List.getElem?_set] at hi
            split at hi
            · rename_i hij; subst hij
              split at hi
              · simp only [Option.some.injEq] at hi
                subst hi
                rw [if_neg hlt]; exact .inr (.inl rfl)
              · simp at hi
            · exact h3 i th hi
          · simp only [stepThread, hpc, h1] at hstep
            rw [if_neg (by decide)] at hstep
            have e : (calcTotal 1#64 / calcNum 1#64).toInt = 0 := by decide
            rw [e] at hstep
            simp only [Option.some.injEq, Prod.mk.injEq] at hstep
            obtain ⟨rfl, rfl⟩ := hstep
            refine ⟨rfl, by simpa using h2, fun i th hi => ?_⟩
            simp only [List.getElem?_set] at hi
            split at hi
            · rename_i hij; subst hij
              split at hi
              · simp only [Option.some.injEq] at hi
                subst hi
                rw [if_neg hlt]; exact .inr (.inr (by simp [enter]))
              · simp at hi
            · exact h3 i th hi
          · simp [stepThread, hpc] at hstep
  intro q hq i th hi hth r hr
  have := (key q hq).2.2 i th hth
  rw [if_neg (by simp only at hi; omega), hr] at this
  simp at this

/-- two calls interleaved: one was started before the other and is still parsing when the other has returned -/
example : ∃ p, Reach sampleEnv p ∧ p.threads.length = 2 ∧ totalBare p ≤ 2^31 ∧ (∃ th ∈ p.threads, ∃ r, th.pc = .done r) ∧
    ∃ th ∈ p.threads, ∃ n r, th.pc = .release n r := by
  have h1 : Reach sampleEnv ⟨procInit.sh, [{ input := asc "[1,2]" }]⟩ := .step .init (.call _ (asc "[1,2]") (by decide))
  obtain ⟨th, hin, hd, h2⟩ := call_done (b := asc "{}") (n := 1) h1 (by decide) (by decide) (by decide) (fun cnt => by cases cnt <;> rfl) (by decide)
  have h3 := Reach.step h2 (PStep.move _ 0 { input := asc "[1,2]" } { input := asc "[1,2]", pc := .readCalc } _ rfl rfl)
  have hst : stepThread sampleEnv (after procInit.sh (asc "{}").length 1) { input := asc "[1,2]", pc := .readCalc } =
      some (after procInit.sh (asc "{}").length 1, enter sampleEnv { input := asc "[1,2]", pc := .readCalc }
        (calcTotal (after procInit.sh (asc "{}").length 1).store / calcNum (after procInit.sh (asc "{}").length 1).store).toInt) := by
    simp only [stepThread]; rw [if_neg (by decide)]
  have h4 := Reach.step h3 (PStep.move _ 0 { input := asc "[1,2]", pc := .readCalc } _ _ rfl hst)
  obtain ⟨n, r, hn⟩ := enter_pc sampleEnv { input := asc "[1,2]", pc := .readCalc }
    (calcTotal (after procInit.sh (asc "{}").length 1).store / calcNum (after procInit.sh (asc "{}").length 1).store).toInt (by decide)
  refine ⟨_, h4, rfl, ?_, ⟨th, by simp, hd⟩, _, List.mem_cons_self, n, r, hn⟩
  simp only [totalBare, List.set_cons_zero, List.cons_append, List.nil_append, List.map_cons, List.map_nil, hin]
  decide

/-! ### C37 -/

/-- IterArray: the elements with their indexes, in order. -/
theorem C37_iter_array (xs : List V) : ∃ c l, iterArray (.arr xs) = .ok c ∧ Delivers c l ∧ l.length = xs.length ∧
    ∀ (j : Nat) (x : V), xs[j]? = some x → l[j]? = some (j, x) :=
  ⟨_, indexed 0 xs, rfl, delivers (by simp [indexed_length]), indexed_length 0 xs, fun j x h => by simp [indexed_get, h]⟩

/-- IterObjects: every member once, in whatever order the map iteration takes. -/
theorem C37_iter_objects (incr : BitVec 32) (kvs : List Ent) (low : Option (List (Bytes × List Bytes))) (order : List Ent → List Ent)
    (ho : (order kvs).Perm kvs) : ∃ c l, iterObjects (.obj incr kvs low) order = .ok c ∧ Delivers c l ∧ l.Perm (kvs.map fun e => (e.key, e.v)) :=
  ⟨_, (order kvs).map fun e => (e.key, e.v), rfl, delivers (by simp [ho.length_eq]), ho.map _⟩

/-- On any other kind of value the channel is closed without an element; only a nil receiver panics. -/
theorem C37_other_kinds (v : V) (order : List Ent → List Ent) (hn : v ≠ .nilp) :
    ((∀ xs, v ≠ .arr xs) → ∃ c, iterArray v = .ok c ∧ Delivers c []) ∧
    ((∀ i kvs low, v ≠ .obj i kvs low) → ∃ c, iterObjects v order = .ok c ∧ Delivers c []) := by
  constructor
  · intro h
    refine ⟨startChan 0 [], ?_, delivers (by simp)⟩
    cases v <;> simp_all [iterArray]
  · intro h
    refine ⟨startChan 0 [], ?_, delivers (by simp)⟩
    cases v <;> simp_all [iterObjects]

/-- the receiver takes one of two elements and stops: the sender finishes all the same -/
example : ∃ s, Runs (startChan 2 [1, 2]) 3 s ∧ s.got = [1] ∧ s.closed = true ∧ s.todo = [] :=
  ⟨_, .send (.send (.recv (.send (.start _) (.send _ 1 [2] rfl rfl (by decide))) (.recv _ 1 [] rfl rfl))
    (.send _ 2 [] rfl rfl (by decide))) (.close _ rfl rfl), rfl, rfl, rfl⟩

/-- and one that is called until the end gets everything -/
example : ∃ s, Runs (startChan 1 [7]) 2 s ∧ s.got = [7] ∧ s.ended = true :=
  ⟨_, .recv (.recv (.send (.send (.start _) (.send _ 7 [] rfl rfl (by decide))) (.close _ rfl rfl)) (.recv _ 7 [] rfl rfl)) (.finish _ rfl rfl rfl),
    rfl, rfl⟩

end JV
