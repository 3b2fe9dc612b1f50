import Verif.Spec.CaselessWork
import Verif.Proofs.ObjRun
/-! Helper lemmas for C102. -/
namespace JV
open Spec

variable {E : Env}

theorem addCaselessW_fst (low : Low) (k : Bytes) : (addCaselessW E low k).1 = addCaseless E low k := by cases low <;> rfl
theorem delCaselessW_fst (low : Low) (k : Bytes) : (delCaselessW E low k).1 = delCaseless E low k := by cases low <;> rfl

theorem addCaselessW_le (low : Low) (k : Bytes) : (addCaselessW E low k).2 ≤ 4 := by
  cases low with
  | none => simp [addCaselessW]
  | some m => simp only [addCaselessW]; split <;> omega

theorem delCaselessW_le (low : Low) (k : Bytes) : (delCaselessW E low k).2 ≤ 4 := by
  cases low with
  | none => simp [delCaselessW]
  | some m =>
    simp only [delCaselessW]
    split
    · omega
    · split <;> omega

theorem fillIndexW_fst (kvs : List Ent) (m : List (Bytes × List Bytes)) :
    (fillIndexW E kvs m).1 = kvs.foldl (fun m e => lowAdd (E.toLower e.key) e.key m) m := by
  induction kvs generalizing m with
  | nil => rfl
  | cons e es ih => simp only [fillIndexW, List.foldl_cons]; rw [ih]; rfl

theorem fillIndexW_le (kvs : List Ent) (m : List (Bytes × List Bytes)) : (fillIndexW E kvs m).2 ≤ 5 * kvs.length := by
  induction kvs generalizing m with
  | nil => simp [fillIndexW]
  | cons e es ih =>
    have h := addCaselessW_le (E := E) (some m) e.key
    have h' := ih ((addCaselessW E (some m) e.key).1.getD m)
    simp only [fillIndexW, List.length_cons]
    omega

theorem fillIndexW_ge (kvs : List Ent) (m : List (Bytes × List Bytes)) : 4 * kvs.length ≤ (fillIndexW E kvs m).2 := by
  induction kvs generalizing m with
  | nil => simp [fillIndexW]
  | cons e es ih =>
    have h : 3 ≤ (addCaselessW E (some m) e.key).2 := by simp only [addCaselessW]; split <;> omega
    have h' := ih ((addCaselessW E (some m) e.key).1.getD m)
    simp only [fillIndexW, List.length_cons]
    omega

theorem initCaselessW_fst (kvs : List Ent) (low : Low) : (initCaselessW E kvs low).1 = initCaseless E kvs low := by
  cases low with
  | some m => rfl
  | none => exact fillIndexW_fst kvs []

/-- what the index still costs -/
def indexDue (kvs : List Ent) : Low → Nat
  | none => 5 * kvs.length
  | some _ => 0

theorem initCaselessW_le (kvs : List Ent) (low : Low) : (initCaselessW E kvs low).2 ≤ indexDue kvs low := by
  cases low with
  | some m => simp [initCaselessW, indexDue]
  | none => exact fillIndexW_le kvs []

theorem firstPresentW_fst (kvs : List Ent) (ks : List Bytes) : (firstPresentW kvs ks).1 = firstPresent kvs ks := by
  induction ks with
  | nil => rfl
  | cons k ks ih => simp only [firstPresentW, firstPresent]; split <;> simp [ih]

theorem findKeyW_fst (cl : Bool) (kvs : List Ent) (low : Low) (key : Bytes) : (findKeyW E cl kvs low key).1 = findKey E cl kvs low key := by
  unfold findKeyW findKey
  split
  · rfl
  · split
    · rfl
    · simp only [initCaselessW_fst]
      split
      · rename_i h; rw [h]
      · rename_i h; rw [h]; simp only [firstPresentW_fst]

/-- all the keys of the index are there: the first one found is taken -/
theorem firstPresentW_le {kvs : List Ent} {ks : List Bytes} (h : ∀ k ∈ ks, k ∈ keys kvs) : (firstPresentW kvs ks).2 ≤ 2 := by
  cases ks with
  | nil => simp [firstPresentW]
  | cons k ks =>
    have : (lookup k kvs).isSome = true := lookup_isSome.2 (h k List.mem_cons_self)
    simp [firstPresentW, this]

/-- one lookup: with what the index still costs paid once, at most 5 steps -/
theorem findKeyW_le {cl : Bool} {kvs : List Ent} {low : Low} (hc : Coh E kvs low) (key : Bytes) :
    (findKeyW E cl kvs low key).2 + indexDue kvs (findKeyW E cl kvs low key).1.1 ≤ 5 + indexDue kvs low := by
  unfold findKeyW
  split
  · simp only; omega
  · rename_i hk
    split
    · simp only; omega
    · rename_i hcl
      have hcl' : cl = true := by cases cl <;> simp_all
      have hi := initCaselessW_le (E := E) kvs low
      have hcoh : Coh E kvs (some (initCaselessW E kvs low).1) := by
        have := findKey_coh (cl := true) (key := key) hc
        rw [initCaselessW_fst]
        unfold findKey at this
        rw [if_neg hk] at this
        simp only [Bool.not_true, Bool.false_eq_true, if_false] at this
        cases hl : lowGet (E.toLower key) (initCaseless E kvs low) <;> rw [hl] at this <;> exact this
      simp only
      split
      · have hz : indexDue kvs (some (initCaselessW E kvs low).1) = 0 := rfl
        simp only [hz]; omega
      · rename_i ks hks
        have h2 : (firstPresentW kvs ks).2 ≤ 2 := firstPresentW_le (fun k hk => ((hcoh.2 _ k).1 ⟨ks, lowGet_some hks, hk⟩).1)
        have hz : indexDue kvs (some (initCaselessW E kvs low).1) = 0 := rfl
        simp only [hz]
        omega

theorem assign_len (e : Ent) (kvs : List Ent) : (assign e kvs).length ≤ kvs.length + 1 := by
  induction kvs with
  | nil => simp [assign]
  | cons x xs ih => simp only [assign]; split <;> simp <;> omega

theorem erase_len (k : Bytes) (kvs : List Ent) : (erase k kvs).length ≤ kvs.length := by
  induction kvs with
  | nil => simp [erase]
  | cons x xs ih => simp only [erase]; split <;> simp <;> omega

/-- what the index of an object still costs -/
def dueV : V → Nat
  | .obj _ kvs low => indexDue kvs low
  | _ => 0

theorem delKeyW_le {cl : Bool} {n : BitVec 32} {kvs : List Ent} {low : Low} (hc : Coh E kvs low) (key : Bytes) :
    (delKeyW E cl n kvs low key).2 + dueV (delKeyW E cl n kvs low key).1 ≤ 10 + indexDue kvs low := by
  have h := findKeyW_le (cl := cl) hc key
  unfold delKeyW
  split
  · rename_i low' k s he
    rw [he] at h
    have hd := delCaselessW_le (E := E) low' k
    simp only [dueV] at h ⊢
    have : indexDue (erase k kvs) (delCaselessW E low' k).1 ≤ indexDue kvs low' := by
      cases low' with
      | none => have := erase_len k kvs; simp only [delCaselessW, indexDue]; omega
      | some m => simp [delCaselessW, indexDue]
    omega
  · rename_i low' s he
    rw [he] at h
    simp only [dueV] at h ⊢
    omega

theorem runW_le {n : BitVec 32} {kvs : List Ent} {low : Low} (hc : Coh E kvs low) (op : ObjOp) :
    (op.runW E n kvs low).2 + dueV (op.runW E n kvs low).1 ≤ 10 + indexDue kvs low := by
  cases op with
  | set k c =>
    simp only [ObjOp.runW]
    split
    · simp only [dueV]; omega
    · have h := addCaselessW_le (E := E) low k
      have h' := assign_len ⟨k, n + 1, c⟩ kvs
      simp only [setKeyW, dueV]
      cases low with
      | none => simp only [addCaselessW, indexDue]; omega
      | some m => simp only [indexDue] at h ⊢; simp only [addCaselessW, indexDue] at h ⊢; omega
  | del k => exact delKeyW_le hc k
  | cdel k => exact delKeyW_le hc k
  | get k => have := findKeyW_le (cl := false) hc k; simp only [ObjOp.runW, dueV]; omega
  | cget k => have := findKeyW_le (cl := true) hc k; simp only [ObjOp.runW, dueV]; omega

theorem runW_fst {n : BitVec 32} {kvs : List Ent} {low : Low} (op : ObjOp) : (op.runW E n kvs low).1 = op.run E (.obj n kvs low) := by
  have hdel : ∀ (cl : Bool) (k : Bytes), (delKeyW E cl n kvs low k).1 = (delete E cl (.obj n kvs low) [.str k]).1 := by
    intro cl k
    simp only [delete_one, deleteLast_str]
    unfold delKeyW
    rw [← findKeyW_fst]
    rcases findKeyW E cl kvs low k with ⟨⟨low', _ | k'⟩, s⟩ <;> simp [delCaselessW_fst]
  have hget : ∀ (cl : Bool) (k : Bytes), V.obj n kvs (findKeyW E cl kvs low k).1.1 = (getC E cl (.obj n kvs low) [.str k]).1 := by
    intro cl k
    simp only [getC, resolve_one]
    rw [resolve1_locate _ _ _ _ rfl, locate_str, findKeyW_fst]
  cases op with
  | set k c =>
    simp only [ObjOp.runW]
    rcases run_set E (v := .obj n kvs low) ⟨n, kvs, low, rfl⟩ k c with ⟨hu, h⟩ | ⟨hu, n', kvs', low', he, h⟩
    · rw [if_pos hu, h]
    · cases he
      rw [if_neg (by simp [hu]), h]
      simp [setKeyW, setKey, addCaselessW_fst]
  | del k => exact hdel false k
  | cdel k => exact hdel true k
  | get k => exact hget false k
  | cget k => exact hget true k

theorem reorder_due {v w : V} (h : Reorder v w) : dueV w = dueV v := by
  cases h with
  | mk n kvs kvs' low low' hp hl =>
    simp only [dueV]
    match low, low', hl with
    | none, none, _ => simp only [indexDue, hp.length_eq]
    | some _, some _, _ => rfl

theorem runsW_le {v w : V} {ops : List ObjOp} {s : Nat} (h : ObjRunW E v ops s w) : GoodNode E v → s + dueV w ≤ 10 * ops.length + dueV v := by
  induction h with
  | nil v => intro _; simp
  | cons n kvs low op ops s w _ ih =>
    intro hg
    have h1 := runW_le (n := n) hg.2 op
    have hg' : GoodNode E (op.runW E n kvs low).1 := by rw [runW_fst]; exact (run_good ⟨n, kvs, low, rfl⟩ hg op).2
    have := ih hg'
    simp only [List.length_cons, dueV] at *
    omega
  | reorder v v' ops s w hr _ ih =>
    intro hg
    have := ih (reorder_good hr hg)
    rw [reorder_due hr] at this
    exact this

end JV
