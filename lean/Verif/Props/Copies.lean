import Verif.Proofs.Copies
import Verif.Props.Parsing
/-!
C97: a `jsonvalue.V` that was copied by assignment.
-/
namespace JV
open Spec

/-- C97 as a user would have it: the variables made from an object by assignment stay one and the same object, for every program of calls through them. -/
def C97_statement : Prop :=
  ∀ (E : Env) (n : BitVec 32) (kvs : List Ent) (low : Low), (kvs.map Ent.key).Nodup → Coh E kvs low → ∀ ops : List CopyOp, Written 1 ops →
    ∃ w, CopyRun True E.toLower { fams := [fun k => (lookup k kvs).map Ent.v], vars := [0] } ops ((ObjMem.start n kvs low).run E ops).2 w

theorem start_ok {E : Env} {n : BitVec 32} {kvs : List Ent} {low : Low} (hn : (kvs.map Ent.key).Nodup) (hc : Coh E kvs low) :
    ObjOk E (ObjMem.start n kvs low) ∧ Whole E (ObjMem.start n kvs low) := by
  refine ⟨⟨?_, ?_, ?_⟩, ⟨?_, ?_, ?_⟩⟩
  · intro h hh
    simp only [ObjMem.start, List.mem_singleton] at hh
    subst hh
    refine ⟨by simp [ObjMem.start], fun l hl => ?_⟩
    cases low with
    | none => simp at hl
    | some m => simp at hl; subst hl; simp [ObjMem.start]
  · intro l hl
    simp only [ObjMem.start, List.mem_singleton] at hl
    subst hl; exact hn
  · intro m hm
    cases low with
    | none => simp [ObjMem.start] at hm
    | some m' => simp [ObjMem.start] at hm; subst hm; exact soundLow_coh hc
  · intro h hh
    simp only [ObjMem.start, List.mem_singleton] at hh
    subst hh
    cases low with
    | none => trivial
    | some m => simpa [ObjMem.members, ObjMem.index, ObjMem.start] using hc
  · intro i j h h' hi hj hij _
    have hi' := (List.getElem?_eq_some_iff.1 hi).1
    have hj' := (List.getElem?_eq_some_iff.1 hj).1
    simp [ObjMem.start] at hi' hj'
    omega
  · intro h hh h' hh' l _ _
    simp only [ObjMem.start, List.mem_singleton] at hh hh'
    rw [hh, hh']

/-- how many variables there are after a call, when there were `n` -/
def varsAfter (n : Nat) : CopyOp → Nat
  | .copy _ | .clone _ => n + 1
  | _ => n

theorem step_vars (E : Env) (s : ObjMem) {o : CopyOp} (ho : o.var < s.vars.length) :
    (s.step E o).1.vars.length = varsAfter s.vars.length o := by
  have hsave : ∀ i h n kvs low, (s.save i h n kvs low).vars.length = s.vars.length := by
    intro i h n kvs low; unfold ObjMem.save; split <;> simp
  unfold ObjMem.step
  rw [List.getElem?_eq_getElem ho]
  cases o with
  | set i k c => exact hsave ..
  | del i cl k =>
    simp only [delKey]
    split <;> exact hsave ..
  | get i cl k => exact hsave ..
  | sub i k f =>
    simp only
    split
    · exact hsave ..
    · rfl
  | copy i => simp [varsAfter]
  | clone i => simp [varsAfter]

theorem written_cons {n : Nat} {o : CopyOp} {os : List CopyOp} (h : Written n (o :: os)) :
    o.var < n ∧ Written (varsAfter n o) os := by
  cases o <;> exact h

/-- no variable is copied before a caseless call through it (or through the variable it was copied from) has made its index -/
def LateCopies (E : Env) (s : ObjMem) : List CopyOp → Prop
  | [] => True
  | o :: os => CopiedLate s o ∧ LateCopies E (s.step E o).1 os

theorem run_all {E : Env} {full : Prop} : ∀ (ops : List CopyOp) {s : ObjMem}, ObjOk E s → (full → Whole E s) → Written s.vars.length ops →
    (full → LateCopies E s ops) → CopyRun full E.toLower s.world ops (s.run E ops).2 (s.run E ops).1.world
  | [], s, _, _, _, _ => .nil _
  | o :: os, s, hs, hw, hwr, hl => by
    obtain ⟨ho, hwr⟩ := written_cons hwr
    obtain ⟨h1, h2, h3⟩ := step_all hs ho hw
    refine .cons h1 (run_all os h2 (h3 fun h => (hl h).1) ?_ fun h => (hl h).2)
    rw [step_vars E s ho]
    exact hwr

/-- what variable number `i` shows in a world: its member `k` -/
def _root_.Spec.World.shows (w : World) (i : Nat) (k : Bytes) : Option V :=
  match w.vars[i]? with
  | some a => match w.fams[a]? with
    | some f => f k
    | none => none
  | none => none

/-- **C97 (proved part)**: Set, Delete and Get with the exact key, calls through a member, assignments and deep copies in any program: all variables
made by assignment show the same members at all times, whichever of them was used to change them, and a deep copy shows its own. What a caseless call
finds or deletes is there and differs from the key in case only. At the end, every variable shows the members of its family. -/
theorem C97_one_object_partial (E : Env) (n : BitVec 32) (kvs : List Ent) (low : Low) (hn : (kvs.map Ent.key).Nodup) (hc : Coh E kvs low) (ops : List CopyOp)
    (hw : Written 1 ops) :
    ∃ w, CopyRun False E.toLower { fams := [fun k => (lookup k kvs).map Ent.v], vars := [0] } ops ((ObjMem.start n kvs low).run E ops).2 w ∧
      ∀ i h, ((ObjMem.start n kvs low).run E ops).1.vars[i]? = some h → ∀ k, (((ObjMem.start n kvs low).run E ops).1.load h).child (.key k) = w.shows i k := by
  obtain ⟨h1, h2⟩ := start_ok (n := n) hn hc
  refine ⟨((ObjMem.start n kvs low).run E ops).1.world, run_all ops h1 (fun h => h.elim) hw fun h => h.elim, fun i h hi k => ?_⟩
  have hb : ∀ (ops : List CopyOp) (s : ObjMem), ObjOk E s → Written s.vars.length ops → ObjOk E (s.run E ops).1 := by
    intro ops
    induction ops with
    | nil => intro s hs _; exact hs
    | cons o os ih =>
      intro s hs hw
      obtain ⟨ho, hw⟩ := written_cons hw
      exact ih _ (step_all hs ho (full := False) (fun h => h.elim)).2.1 (by rw [step_vars E s ho]; exact hw)
  have hm := (members_ok (hb ops _ h1 hw) hi).1
  simp only [World.shows, ObjMem.world, List.getElem?_map, hi, Option.map_some, hm, memb]
  rfl

/-- **C97 (proved part)**: when no variable is copied before it has its index of lower-case keys, caseless calls through every copy find a key exactly
when there is one, whichever copy was used to add or to delete it. -/
theorem C97_caseless_partial (E : Env) (n : BitVec 32) (kvs : List Ent) (low : Low) (hn : (kvs.map Ent.key).Nodup) (hc : Coh E kvs low) (ops : List CopyOp)
    (hw : Written 1 ops) (hl : LateCopies E (ObjMem.start n kvs low) ops) :
    ∃ w, CopyRun True E.toLower { fams := [fun k => (lookup k kvs).map Ent.v], vars := [0] } ops ((ObjMem.start n kvs low).run E ops).2 w := by
  obtain ⟨h1, h2⟩ := start_ok (n := n) hn hc
  exact ⟨_, run_all ops h1 (fun _ => h2) hw fun _ => hl⟩

/-- how a variable gets its index: by a caseless Get or Delete with a key that is not there in that spelling -/
theorem C97_index_made (E : Env) (s : ObjMem) (i : Nat) (h : ObjVar) (hi : s.vars[i]? = some h) (k : Bytes) (hk : k ∉ (s.members h).map Ent.key) :
    ∀ o ∈ [CopyOp.get i true k, .del i true k], ∃ h', (s.step E o).1.vars[i]? = some h' ∧ h'.low.isSome = true ∧ h'.map = h.map := by
  have hlt := (List.getElem?_eq_some_iff.1 hi).1
  have hsave : ∀ n kvs (low : Low), low.isSome = true → ∃ h', (s.save i h n kvs low).vars[i]? = some h' ∧ h'.low.isSome = true ∧ h'.map = h.map := by
    intro n kvs low hl
    obtain ⟨m, rfl⟩ := Option.isSome_iff_exists.1 hl
    cases hlow : h.low with
    | none => exact ⟨{ h with incr := n, low := some s.lows.length }, by simp [ObjMem.save, hlow, hlt], rfl, rfl⟩
    | some l => exact ⟨{ h with incr := n }, by simp [ObjMem.save, hlow, hlt], by simp [hlow], rfl⟩
  have hf : (findKey E true (s.members h) (s.index h) k).1.isSome = true := by
    have : ¬ (lookup k (s.members h)).isSome = true := fun hh => hk (lookup_isSome.1 hh)
    simp only [findKey, this, if_false, Bool.not_true, Bool.false_eq_true]
    split <;> rfl
  intro o ho
  simp only [List.mem_cons, List.not_mem_nil, or_false] at ho
  rcases ho with rfl | rfl
  · simp only [ObjMem.step, CopyOp.var, hi]
    exact hsave _ _ _ hf
  · simp only [ObjMem.step, CopyOp.var, hi, delKey]
    cases hfk : findKey E true (s.members h) (s.index h) k with
    | mk low r =>
      rw [hfk] at hf
      cases r with
      | none => exact hsave _ _ _ hf
      | some k' => exact hsave _ _ _ (by simpa [delCaseless] using hf)

/-- `w := *v` and then: a caseless Get through v, Set "A" through w, and a caseless Get of "a" through v -/
def staleIndex : List CopyOp := [.copy 0, .get 0 true (asc "x"), .set 1 (asc "A") .null, .get 0 true (asc "a"), .get 0 false (asc "A"), .get 1 true (asc "a")]

/-- **C97 fails**: v has the key "A" but its caseless Get of "a" finds nothing; w finds it. -/
theorem C97_counterexample : ¬ C97_statement := by
  intro h
  obtain ⟨w, hw⟩ := h sampleEnv 0 [] none (by simp) trivial staleIndex (by simp [staleIndex, Written, CopyOp.var])
  have hout : ((ObjMem.start 0 [] none).run sampleEnv staleIndex).2 = [.done, .missing, .done, .missing, .found .null, .found .null] := rfl
  rw [hout] at hw
  unfold staleIndex at hw
  cases hw with
  | cons h1 hw => cases h1 with
    | copy hv1 => cases hw with
      | cons h2 hw => cases h2 with
        | getNot hv2 hf2 hn2 => cases hw with
          | cons h3 hw => cases h3 with
            | set hv3 hf3 => cases hw with
              | cons h4 hw => cases h4 with
                | getNot hv4 hf4 hn4 =>
                  simp at hv1; subst hv1
                  simp at hv3; subst hv3
                  simp at hf3; subst hf3
                  simp [World.put] at hv4; subst hv4
                  simp [World.put] at hf4; subst hf4
                  exact hn4.2 trivial (asc "A") (.fold _ rfl (by decide +kernel) (by decide +kernel) (by decide +kernel))

/-! ## the order of setting -/

/-- the id under which a variable holds a key; OptSetSequence and RangeObjectsBySetSequence sort by it (C16) -/
def ObjMem.idOf (s : ObjMem) (i : Nat) (k : Bytes) : Option (BitVec 32) :=
  match s.vars[i]? with
  | some h => (lookup k (s.members h)).map Ent.id
  | none => none

/-- all ids are at most the counter of variable `i` -/
def Leads (i b : Nat) (s : ObjMem) : Prop := ∃ h, s.vars[i]? = some h ∧ h.incr.toNat ≤ b ∧ ∀ e ∈ s.members h, e.id.toNat ≤ h.incr.toNat

theorem mem_putKey_id {k : Bytes} {c : V} {x : Ent} {kvs : List Ent} (h : x ∈ putKey k c kvs) : ∃ y ∈ kvs, y.id = x.id := by
  induction kvs with
  | nil => simp [putKey] at h
  | cons y ys ih =>
    simp only [putKey] at h
    split at h
    · simp only [List.mem_cons] at h
      rcases h with rfl | h
      · exact ⟨y, by simp, rfl⟩
      · exact ⟨x, by simp [h], rfl⟩
    · simp only [List.mem_cons] at h
      rcases h with rfl | h
      · exact ⟨x, by simp, rfl⟩
      · obtain ⟨z, hz, he⟩ := ih h
        exact ⟨z, by simp [hz], he⟩

theorem save_vars (s : ObjMem) (i : Nat) (h : ObjVar) (n : BitVec 32) (kvs : List Ent) (low : Low) :
    (s.save i h n kvs low).maps = s.maps.set h.map kvs ∧ ∃ l, (s.save i h n kvs low).vars = s.vars.set i { h with incr := n, low := l } := by
  unfold ObjMem.save
  split
  · exact ⟨rfl, h.low, rfl⟩
  · exact ⟨rfl, some s.lows.length, rfl⟩
  · exact ⟨rfl, h.low, rfl⟩

/-- a call through any variable that gives the members no larger ids, and leaves the counter alone -/
theorem leads_save {E : Env} {s : ObjMem} (hs : ObjOk E s) {i b j : Nat} {g : ObjVar} (hj : s.vars[j]? = some g) {kvs : List Ent} {low : Low}
    (hk : ∀ e ∈ kvs, ∃ e' ∈ s.members g, e'.id = e.id) (hl : Leads i b s) : Leads i b (s.save j g g.incr kvs low) := by
  obtain ⟨h, hi, hb, hid⟩ := hl
  obtain ⟨h1, l, h2⟩ := save_vars s j g g.incr kvs low
  have hlt := (List.getElem?_eq_some_iff.1 hj).1
  have hg := (hs.bound g (List.mem_of_getElem? hj)).1
  have key : ∀ h' : ObjVar, h'.map = h.map → ∀ e ∈ (s.save j g g.incr kvs low).members h', e.id.toNat ≤ h.incr.toNat := by
    intro h' hm e he
    rw [ObjMem.members, h1, hm] at he
    by_cases hgm : g.map = h.map
    · rw [← hgm, getD_set_eq _ _ _ _ hg] at he
      obtain ⟨e', he', hee⟩ := hk e he
      rw [← hee]
      exact hid e' (by rw [ObjMem.members, ← hgm]; exact he')
    · rw [getD_set_ne _ _ _ _ _ hgm] at he
      exact hid e he
  by_cases hji : j = i
  · subst hji
    rw [hi] at hj; cases hj
    exact ⟨{ g with low := l }, by rw [h2]; simp [hlt], hb, key _ rfl⟩
  · exact ⟨h, by rw [h2, List.getElem?_set, if_neg hji]; exact hi, hb, key h rfl⟩

theorem leads_step {E : Env} {s : ObjMem} (hs : ObjOk E s) {i b : Nat} {o : CopyOp} (ho : o.var < s.vars.length) (hset : ∀ j k c, o = .set j k c → j = i)
    (hb : b + 1 < 2 ^ 32) (hl : Leads i b s) : Leads i (b + 1) (s.step E o).1 := by
  have weak : ∀ {s : ObjMem}, Leads i b s → Leads i (b + 1) s := fun ⟨h, h1, h2, h3⟩ => ⟨h, h1, by omega, h3⟩
  obtain ⟨g, hj⟩ : ∃ g, s.vars[o.var]? = some g := ⟨_, List.getElem?_eq_getElem ho⟩
  unfold ObjMem.step
  rw [hj]
  cases o with
  | set j k c =>
    have := hset j k c rfl
    subst this
    simp only [CopyOp.var] at hj
    obtain ⟨h, hi, hhb, hid⟩ := hl
    rw [hj] at hi; cases hi
    obtain ⟨h1, l, h2⟩ := save_vars s j g (g.incr + 1) (assign ⟨k, g.incr + 1, c⟩ (s.members g)) (addCaseless E (s.index g) k)
    have hlt := (List.getElem?_eq_some_iff.1 hj).1
    have hg := (hs.bound g (List.mem_of_getElem? hj)).1
    have hn : (g.incr + 1).toNat = g.incr.toNat + 1 := by
      rw [BitVec.toNat_add, show (1 : BitVec 32).toNat = 1 from rfl]
      omega
    simp only [setKey, ObjMem.saveV]
    refine ⟨{ g with incr := g.incr + 1, low := l }, by rw [h2]; simp [hlt], by simp only [hn]; omega, fun e he => ?_⟩
    rw [ObjMem.members, h1, getD_set_eq _ _ _ _ hg] at he
    simp only [hn]
    rcases mem_assign he with rfl | he
    · exact Nat.le_of_eq hn
    · have := hid e he; omega
  | del j cl k =>
    simp only [CopyOp.var] at hj
    simp only [delKey]
    cases findKey E cl (s.members g) (s.index g) k with
    | mk low r =>
      cases r with
      | some k' => exact weak (leads_save hs hj (fun e he => ⟨e, mem_erase he, rfl⟩) hl)
      | none => exact weak (leads_save hs hj (fun e he => ⟨e, he, rfl⟩) hl)
  | get j cl k => exact weak (leads_save hs hj (fun e he => ⟨e, he, rfl⟩) hl)
  | sub j k f =>
    simp only
    split
    · exact weak (leads_save hs hj (fun e he => mem_putKey_id he) hl)
    · exact weak hl
  | copy j =>
    obtain ⟨h, hi, hhb, hid⟩ := hl
    exact ⟨h, by simp only; rw [List.getElem?_append_left (List.getElem?_eq_some_iff.1 hi).1]; exact hi, by omega, hid⟩
  | clone j =>
    obtain ⟨h, hi, hhb, hid⟩ := hl
    have hm := (hs.bound h (List.mem_of_getElem? hi)).1
    refine ⟨h, by simp only; rw [List.getElem?_append_left (List.getElem?_eq_some_iff.1 hi).1]; exact hi, by omega, fun e he => hid e ?_⟩
    simpa [ObjMem.members, List.getD, List.getElem?_append_left hm] using he

theorem leads_run {E : Env} {i : Nat} : ∀ (ops : List CopyOp) {s : ObjMem} {b : Nat}, ObjOk E s → Written s.vars.length ops →
    (∀ j k c, CopyOp.set j k c ∈ ops → j = i) → b + ops.length < 2 ^ 32 → Leads i b s → Leads i (b + ops.length) (s.run E ops).1 ∧ ObjOk E (s.run E ops).1
  | [], s, b, hs, _, _, _, hl => ⟨hl, hs⟩
  | o :: os, s, b, hs, hw, hset, hb, hl => by
    obtain ⟨ho, hw⟩ := written_cons hw
    simp only [List.length_cons] at hb ⊢
    have h1 := leads_step hs ho (fun j k c h => hset j k c (by simp [h])) (by omega) hl
    have h2 := (step_all hs ho (full := False) (fun h => h.elim)).2.1
    have := leads_run os h2 (by rw [step_vars E s ho]; exact hw) (fun j k c h => hset j k c (by simp [h])) (by omega) h1
    rw [show b + (os.length + 1) = b + 1 + os.length by omega]
    exact this

/-- C97 for the order of setting, as a user would have it: what is set last, through whichever copy, comes last -/
def C97_order_statement : Prop :=
  ∀ (E : Env) (ops : List CopyOp), Written 1 ops → ops.length < 2 ^ 32 - 1 →
    ∀ (i : Nat) (h : ObjVar) (k k' : Bytes) (c : V) (a b : BitVec 32), ((ObjMem.start 0 [] none).run E ops).1.vars[i]? = some h → k ≠ k' →
      ((((ObjMem.start 0 [] none).run E ops).1.step E (.set i k c)).1.idOf i k) = some a →
      ((((ObjMem.start 0 [] none).run E ops).1.step E (.set i k c)).1.idOf i k') = some b → b < a

/-- **C97 (proved part)**: with any number of copies, as long as all of them but one are not used for Set, what is set last comes last. -/
theorem C97_order_partial (E : Env) (n : BitVec 32) (kvs : List Ent) (low : Low) (hn : (kvs.map Ent.key).Nodup) (hc : Coh E kvs low)
    (hids : ∀ e ∈ kvs, e.id ≤ n) (ops : List CopyOp) (hw : Written 1 ops) (hset : ∀ j k c, CopyOp.set j k c ∈ ops → j = 0)
    (hlen : n.toNat + ops.length + 1 < 2 ^ 32) (k k' : Bytes) (c : V) (hk : k ≠ k') :
    ∃ a, (((ObjMem.start n kvs low).run E ops).1.step E (.set 0 k c)).1.idOf 0 k = some a ∧
      ∀ b, (((ObjMem.start n kvs low).run E ops).1.step E (.set 0 k c)).1.idOf 0 k' = some b → b < a := by
  have hok := (start_ok (n := n) hn hc).1
  have h0 : Leads 0 n.toNat (ObjMem.start n kvs low) :=
    ⟨{ incr := n, map := 0, low := low.map fun _ => 0 }, rfl, Nat.le_refl _, fun e he => BitVec.le_def.1 (hids e (by simpa [ObjMem.members, ObjMem.start] using he))⟩
  obtain ⟨⟨h, hi, hb, hid⟩, hs⟩ := leads_run ops hok hw hset (by omega) h0
  revert hi hb hid hs
  generalize ((ObjMem.start n kvs low).run E ops).1 = s
  intro hs hi hb hid
  obtain ⟨h1, l, h2⟩ := save_vars s 0 h (h.incr + 1) (assign ⟨k, h.incr + 1, c⟩ (s.members h)) (addCaseless E (s.index h) k)
  have hlt := (List.getElem?_eq_some_iff.1 hi).1
  have hg := (hs.bound h (List.mem_of_getElem? hi)).1
  have hm : ((s.step E (.set 0 k c)).1.vars[0]? = some { h with incr := h.incr + 1, low := l }) := by
    simp only [ObjMem.step, CopyOp.var, hi, setKey, ObjMem.saveV, h2]
    simp [hlt]
  have hmm : (s.step E (.set 0 k c)).1.members { h with incr := h.incr + 1, low := l } = assign ⟨k, h.incr + 1, c⟩ (s.members h) := by
    have : (s.step E (.set 0 k c)).1 = s.save 0 h (h.incr + 1) (assign ⟨k, h.incr + 1, c⟩ (s.members h)) (addCaseless E (s.index h) k) := by
      simp only [ObjMem.step, CopyOp.var, hi, setKey, ObjMem.saveV]
    rw [this, ObjMem.members, h1]
    exact getD_set_eq _ _ _ _ hg
  have hid' : ∀ q, (s.step E (.set 0 k c)).1.idOf 0 q = (if k = q then some ⟨k, h.incr + 1, c⟩ else lookup q (s.members h)).map Ent.id := by
    intro q
    unfold ObjMem.idOf
    rw [hm]
    simp only
    rw [hmm, lookup_assign]
    rfl
  refine ⟨h.incr + 1, by rw [hid', if_pos rfl]; rfl, fun b hb' => ?_⟩
  rw [hid', if_neg hk, Option.map_eq_some_iff] at hb'
  obtain ⟨e, he, rfl⟩ := hb'
  have := hid e (lookup_some_key he).2
  rw [BitVec.lt_def, BitVec.toNat_add, show (1 : BitVec 32).toNat = 1 from rfl]
  omega

/-- **C97 fails for the order**: `w := *v`, then "b" and "c" through w and "a" through v: "a", set last, has a smaller id than "c". -/
theorem C97_order_counterexample : ¬ C97_order_statement := by
  intro h
  have := h sampleEnv [.copy 0, .set 1 (asc "b") .null, .set 1 (asc "c") .null] (by simp [Written, CopyOp.var]) (by decide) 0 { incr := 0, map := 0, low := none }
    (asc "a") (asc "c") .null 1 2 rfl (by decide) rfl rfl
  exact absurd this (by decide)

/-! ## arrays -/

variable {α : Type}

/-- the slices lie in their arrays -/
def ArrMem.Ok (s : ArrMem α) : Prop := ∀ h ∈ s.vars, WFArr (s.load h)

/-- the elements of a variable, and the capacity of its array -/
def ArrMem.show (s : ArrMem α) (h : Nat × Nat) : List α := (s.load h).view
def ArrMem.cap (s : ArrMem α) (h : Nat × Nat) : Nat := (s.load h).cells.length

/-- **C97 for arrays**: what a call through one variable does. The variable itself shows what the call makes of its list of elements. Another variable
keeps its length; it shows the same elements as before when it has an array of its own, and what `shadow` says when it shares the array. -/
theorem C97_array [HasNil α] (grow : Nat → Nat) (s : ArrMem α) (hs : s.Ok) (i : Nat) (h : Nat × Nat) (hi : s.vars[i]? = some h) (o : SliceOp α) :
    (s.call grow i o = .panic ∧ listOp o (s.show h) = .panic) ∨
    ∃ t h', s.call grow i o = .ok t ∧ t.Ok ∧ t.vars.length = s.vars.length ∧ t.vars[i]? = some h' ∧ listOp o (s.show h) = .ok (t.show h') ∧
      ∀ j g, j ≠ i → s.vars[j]? = some g → t.vars[j]? = some g ∧
        t.show g = if g.1 = h.1 then shadow (decide (h.2 < s.cap h)) (s.show h) (s.show g) o else s.show g := by
  have hw := hs h (List.mem_of_getElem? hi)
  rcases tracks_op grow hw o with ⟨b, h1, h2, h3, h4⟩ | ⟨h1, h2⟩
  · have hlt := (List.getElem?_eq_some_iff.1 hi).1
    refine .inr ⟨{ mem := b.mem, vars := s.vars.set i (b.arr, b.len) }, (b.arr, b.len), ?_, ?_, by simp, by simp [hlt], h2, ?_⟩
    · simp only [ArrMem.call, hi, h1, R.bind_ok, R.pure_eq]
    · intro g hg
      rcases List.mem_or_eq_of_mem_set hg with hg | rfl
      · obtain ⟨cells, e1, e2⟩ := hs g hg
        have hglt := (List.getElem?_eq_some_iff.1 e1).1
        simp only [ArrMem.load] at e1 e2 hglt
        by_cases he : g.1 = h.1
        · have := cap_kept grow hw h1
          obtain ⟨c', e3, e4⟩ := this
          refine ⟨c', ?_, ?_⟩
          · simp only [ArrMem.load, he]; exact e3
          · simp only [ArrMem.load] at e4 ⊢
            have : (s.load h).cells = cells := by
              simp only [ArrV.cells, ArrMem.load, ← he, List.getD, e1, Option.getD_some]
            rw [← this] at e2
            exact Nat.le_trans e2 e4
        · exact ⟨cells, by simp only [ArrMem.load]; rw [h4.rest g.1 hglt he]; exact e1, e2⟩
      · exact h3
    · intro j g hj hg
      refine ⟨by simp only; rw [List.getElem?_set, if_neg (Ne.symm hj)]; exact hg, ?_⟩
      have hgw := wf_cells (hs g (List.mem_of_getElem? hg))
      split
      · rename_i he
        have hc : (s.load g).cells = (s.load h).cells := by simp [ArrV.cells, ArrMem.load, he]
        have := op_shadow grow hw h1 g.2 (by rw [← hc]; exact hgw.2.1)
        have e1 : s.show g = (s.load h).cells.take g.2 := by rw [ArrMem.show, ArrV.view, hc]; rfl
        rw [e1]
        rw [show ArrMem.show { mem := b.mem, vars := s.vars.set i (b.arr, b.len) } g = b.other ((s.load h).arr, g.2) by
          simp [ArrMem.show, ArrV.view, ArrV.cells, ArrMem.load, ArrV.other, he]]
        exact this
      · rename_i he
        exact other_frame h4 (h := g) hgw.2.2 he
  · exact .inl ⟨by simp only [ArrMem.call, hi, h1]; rfl, h2⟩

instance optNil : HasNil (Option Nat) := ⟨none⟩

/-- The value of an array after `w := *v` and a call through `v`, as a user would have it: `w` shows what it showed (a copy) or the same as `v` (a reference). -/
def C97_array_statement : Prop :=
  ∀ (grow : Nat → Nat) (s t : ArrMem (Option Nat)), s.Ok → ∀ (i j : Nat) (h g : Nat × Nat) (o : SliceOp (Option Nat)), s.vars[i]? = some h → s.vars[j]? = some h →
    i ≠ j → s.call grow i o = .ok t → t.vars[j]? = some g → t.show g = s.show h ∨ ∀ h', t.vars[i]? = some h' → t.show g = t.show h'

/-- `w := *v` of an array of three; the numbers are pointers to children, `none` is a nil pointer -/
def threeTwice : ArrMem (Option Nat) := { mem := [[some 1, some 2, some 3, none]], vars := [(0, 3), (0, 3)] }

theorem threeTwice_ok : threeTwice.Ok := by
  intro h hh
  simp only [threeTwice, List.mem_cons, List.not_mem_nil, or_false, or_self] at hh
  subst hh
  exact ⟨[some 1, some 2, some 3, none], rfl, by decide⟩

/-- **C97 fails for arrays**: after the deletion of the first element through v, w shows the elements 2, 3, 3: neither what it showed before nor what v shows. -/
theorem C97_array_counterexample : ¬ C97_array_statement := by
  intro h
  have := h (fun n => 2 * n) threeTwice { mem := [[some 2, some 3, some 3, none]], vars := [(0, 2), (0, 3)] } threeTwice_ok 0 1 (0, 3) (0, 3) (.delete 0) rfl rfl (by decide) rfl rfl
  rcases this with h | h
  · exact absurd h (by decide)
  · exact absurd (h (0, 2) rfl) (by decide)

/-- Deletion of the last element through v leaves a nil pointer in w: Marshal, Range callbacks and other methods of the child then panic. -/
theorem C97_array_nil [HasNil α] (grow : Nat → Nat) (s : ArrMem α) (hs : s.Ok) (i j : Nat) (h : Nat × Nat) (hi : s.vars[i]? = some h) (hj : s.vars[j]? = some h)
    (hij : j ≠ i) (hne : 0 < h.2) :
    ∃ t, s.call grow i (.delete (h.2 - 1)) = .ok t ∧ t.vars[j]? = some h ∧ (t.show h)[h.2 - 1]? = some HasNil.nilv := by
  have hl : (s.show h).length = h.2 := view_length (hs h (List.mem_of_getElem? hi))
  rcases C97_array grow s hs i h hi (.delete (h.2 - 1)) with ⟨-, h2⟩ | ⟨t, h', h1, -, -, -, -, h2⟩
  · rw [listOp, if_pos (by omega)] at h2; cases h2
  · obtain ⟨h3, h4⟩ := h2 j h hij hj
    refine ⟨t, h1, h3, ?_⟩
    rw [h4, if_pos rfl, shadow, if_pos (by omega), List.getElem?_take, if_pos (by omega), List.getElem?_append_right (by simp [List.length_eraseIdx]; split <;> omega)]
    have : h.2 - 1 - ((s.show h).eraseIdx (h.2 - 1)).length = 0 := by
      rw [List.length_eraseIdx, if_pos (by omega)]; omega
    rw [this]; rfl

/-- An element appended through v is overwritten by the next one appended through w, when the array has room. -/
theorem C97_array_append [HasNil α] (grow : Nat → Nat) (s : ArrMem α) (hs : s.Ok) (i j : Nat) (h : Nat × Nat) (hi : s.vars[i]? = some h) (hj : s.vars[j]? = some h)
    (hij : i ≠ j) (hroom : h.2 < s.cap h) (x y : α) :
    ∃ t u h', s.call grow i (.append x) = .ok t ∧ t.call grow j (.append y) = .ok u ∧ t.vars[i]? = some h' ∧ u.vars[i]? = some h' ∧
      t.show h' = s.show h ++ [x] ∧ u.show h' = s.show h ++ [y] := by
  have hl : (s.show h).length = h.2 := view_length (hs h (List.mem_of_getElem? hi))
  have hw := hs h (List.mem_of_getElem? hi)
  have ht : s.call grow i (.append x) = .ok { mem := s.mem.set h.1 ((s.load h).cells.set h.2 x), vars := s.vars.set i (h.1, h.2 + 1) } := by
    have hr : (s.load h).len < (s.load h).cells.length := hroom
    simp only [ArrMem.call, hi, ArrV.op, ArrV.append, if_pos hr, R.bind_ok, R.pure_eq]
    rfl
  have hlt := (List.getElem?_eq_some_iff.1 hi).1
  rcases C97_array grow s hs i h hi (.append x) with ⟨h1, -⟩ | ⟨t, h', h1, hok, -, h2, h3, h4⟩
  · rw [ht] at h1; cases h1
  · have hj' := (h4 j h (Ne.symm hij) hj).1
    rw [ht] at h1
    have hte := (R.ok.inj h1)
    have hh' : h' = (h.1, h.2 + 1) := by
      rw [← hte] at h2
      simpa [hlt] using h2.symm
    have hcap : t.cap h = s.cap h := by
      have := (wf_cells hw).2.2
      rw [← hte]
      simp only [ArrMem.load] at this
      simp [ArrMem.cap, ArrV.cells, ArrMem.load, this]
    rcases C97_array grow t hok j h hj' (.append y) with ⟨-, k1⟩ | ⟨u, g, k1, -, -, -, -, k4⟩
    · cases k1
    · obtain ⟨k5, k6⟩ := k4 i h' hij h2
      have hsh : t.show h' = s.show h ++ [x] := (R.ok.inj h3).symm
      have hth : (t.show h).length = h.2 := view_length (hok h (List.mem_of_getElem? hj'))
      refine ⟨t, u, h', by rw [ht, hte], k1, h2, k5, hsh, ?_⟩
      rw [k6, if_pos (by rw [hh']), hcap, shadow, hsh, hth, if_pos (by simpa using hroom), List.set_append_right _ _ (by omega), hl]
      simp

/-- The hypotheses are met: three copies, a caseless call before the assignments, then calls through all of them. -/
example : ∃ w, CopyRun True sampleEnv.toLower { fams := [fun _ => none], vars := [0] }
    [.get 0 true (asc "x"), .copy 0, .copy 1, .set 1 (asc "A") .null, .get 2 true (asc "a"), .del 0 true (asc "a"), .get 1 false (asc "A")]
    [.missing, .done, .done, .done, .found .null, .done, .missing] w :=
  C97_caseless_partial sampleEnv 0 [] none (by simp) trivial _ (by simp [Written, CopyOp.var])
    ⟨(fun i h hh => nomatch hh), (fun i h hh hi => by cases hh; cases hi; rfl), (fun i h hh hi => by cases hh; cases hi; rfl), (fun i h hh => nomatch hh),
      (fun i h hh => nomatch hh), (fun i h hh => nomatch hh), (fun i h hh => nomatch hh), trivial⟩

end JV
