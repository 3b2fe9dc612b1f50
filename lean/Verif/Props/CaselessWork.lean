import Verif.Proofs.CaselessWork
import Verif.Props.History
/-! C102: what caseless access costs over a history. -/
namespace JV
open Spec

/-- **C102**: any history of calls on an object takes no more steps than ten for each call and five for each member
the object had at the start. -/
theorem C102 (E : Env) (v w : V) (ops : List ObjOp) (s : Nat) (hb : Built E Any v) (h : ObjRunW E v ops s w) :
    s ≤ 10 * ops.length + 5 * memberCount v := by
  have h1 := runsW_le h (built_good hb [] _ rfl)
  have h2 : dueV v ≤ 5 * memberCount v := by
    cases v with
    | obj n kvs low => cases low <;> simp [dueV, indexDue, memberCount]
    | _ => simp [dueV]
  omega

/-- the histories are those of the calls: counting the steps changes nothing, and every call on an object is counted -/
theorem C102_same (E : Env) (v w : V) (ops : List ObjOp) (hv : IsObj v) :
    ObjRun E v ops w ↔ ∃ s, ObjRunW E v ops s w := by
  constructor
  · intro h
    induction h with
    | nil v => exact ⟨0, .nil v⟩
    | cons v op ops w _ ih =>
      obtain ⟨n, kvs, low, rfl⟩ := hv
      have hw : IsObj (op.run E (.obj n kvs low)) := by
        rw [← runW_fst]
        cases op with
        | set k c => simp only [ObjOp.runW]; split <;> exact ⟨_, _, _, rfl⟩
        | del k => simp only [ObjOp.runW, delKeyW]; split <;> exact ⟨_, _, _, rfl⟩
        | cdel k => simp only [ObjOp.runW, delKeyW]; split <;> exact ⟨_, _, _, rfl⟩
        | get k => exact ⟨_, _, _, rfl⟩
        | cget k => exact ⟨_, _, _, rfl⟩
      obtain ⟨s, hs⟩ := ih hw
      rw [← runW_fst] at hs
      exact ⟨_, .cons n kvs low op ops s w hs⟩
    | reorder v v' ops w hr _ ih =>
      obtain ⟨s, hs⟩ := ih (reorder_isObj hr)
      exact ⟨s, .reorder _ _ _ _ _ hr hs⟩
  · rintro ⟨s, h⟩
    clear hv
    induction h with
    | nil v => exact .nil v
    | cons n kvs low op ops s w _ ih => rw [runW_fst] at ih; exact .cons _ _ _ _ ih
    | reorder v v' ops s w hr _ ih => exact .reorder _ _ _ _ hr ih

/-- A single call may take more than ten steps: the first caseless one that does not find its key at once goes
through all the members. -/
theorem C102_first (E : Env) (n : BitVec 32) (kvs : List Ent) (k : Bytes) (hk : k ∉ kvs.map Ent.key) :
    4 * kvs.length ≤ ((ObjOp.cget k).runW E n kvs none).2 := by
  have hl : (lookup k kvs).isSome = false := by
    cases h : (lookup k kvs).isSome with
    | false => rfl
    | true => exact absurd (lookup_isSome.1 h) hk
  have h := fillIndexW_ge (E := E) kvs []
  simp only [ObjOp.runW, findKeyW, hl, Bool.false_eq_true, if_false, Bool.not_true, initCaselessW]
  split <;> simp only <;> omega

/-- After it every call takes at most ten steps, whatever the size of the object. -/
theorem C102_indexed (E : Env) (n : BitVec 32) (kvs : List Ent) (m : List (Bytes × List Bytes)) (op : ObjOp)
    (hb : Built E Any (.obj n kvs (some m))) : (op.runW E n kvs (some m)).2 ≤ 10 ∧
    ∃ n' kvs' m', (op.runW E n kvs (some m)).1 = .obj n' kvs' (some m') := by
  have hg := built_good hb [] _ rfl
  constructor
  · have := runW_le (n := n) hg.2 op
    simp only [indexDue] at this
    omega
  · have hf : ∀ cl k, ∃ m', (findKeyW E cl kvs (some m) k).1.1 = some m' := by
      intro cl k
      unfold findKeyW
      split
      · exact ⟨m, rfl⟩
      · split
        · exact ⟨m, rfl⟩
        · simp only; split <;> exact ⟨_, rfl⟩
    have hd : ∀ cl k, ∃ n' kvs' m', (delKeyW E cl n kvs (some m) k).1 = .obj n' kvs' (some m') := by
      intro cl k
      obtain ⟨m', hm⟩ := hf cl k
      unfold delKeyW
      split
      · rename_i he; rw [he] at hm; simp only at hm; subst hm; exact ⟨_, _, _, rfl⟩
      · rename_i he; rw [he] at hm; simp only at hm; subst hm; exact ⟨_, _, _, rfl⟩
    cases op with
    | set k c => simp only [ObjOp.runW]; split <;> exact ⟨_, _, _, rfl⟩
    | del k => exact hd false k
    | cdel k => exact hd true k
    | get k => obtain ⟨m', hm⟩ := hf false k; exact ⟨n, kvs, m', by simp only [ObjOp.runW, hm]⟩
    | cget k => obtain ⟨m', hm⟩ := hf true k; exact ⟨n, kvs, m', by simp only [ObjOp.runW, hm]⟩

/-- a history: two members set, the index made by a caseless read, one member taken away, and the total -/
def workOps : List ObjOp := [.set (asc "Key") .null, .set (asc "other") .null, .cget (asc "KEY"), .cdel (asc "kEY"), .cget (asc "Other")]

example : ∃ w, ObjRunW sampleEnv newObject workOps 32 w ∧ Built sampleEnv Any newObject :=
  ⟨_, .cons _ _ _ _ _ 31 _ (.cons _ _ _ _ _ 30 _ (.cons _ _ _ _ _ 15 _ (.cons _ _ _ _ _ 5 _ (.cons _ _ _ _ _ 0 _ (.nil _))))), .object⟩

end JV
