import Verif.Proofs.Buffers
/-! C66: which byte slices may be reused. -/
namespace JV
open Spec

/-- As long as UnmarshalNoCopy is not called, nothing that is written into any slice changes any value: every value reads the same at every later
time, whatever the caller writes into the slices it gave to the library or was given by it, and whatever other calls are made. -/
theorem C66_slices_may_be_reused (E : Env) (junk : Bytes → Bytes) (os os' : List BufOp) (st st' : BufSt) (h : AnyRun E junk {} os st)
    (h' : AnyRun E junk st os' st') (hc : ∀ o ∈ os ++ os', Copies o) : ∀ v ∈ st.vals, v ∈ st'.vals ∧ v.read st'.mem = v.read st.mem := by
  have h1 := copies_run h (fun o ho => hc o (by simp [ho])) rfl
  have h2 := copies_run h' (fun o ho => hc o (by simp [ho])) h1.1
  exact polite_keeps h2.2 (any_guarded h guarded_new)

/-- With UnmarshalNoCopy: every value reads the same as long as no slice that was given to it is written to or parsed again. -/
theorem C66_no_copy (E : Env) (junk : Bytes → Bytes) (os os' : List BufOp) (st st' : BufSt) (h : AnyRun E junk {} os st)
    (h' : PoliteRun E junk st os' st') : ∀ v ∈ st.vals, v ∈ st'.vals ∧ v.read st'.mem = v.read st.mem :=
  polite_keeps h' (any_guarded h guarded_new)

/-- The library itself writes into a slice of the caller in UnmarshalNoCopy only -/
theorem C66_callers_slices (E : Env) (junk : Bytes → Bytes) (st : BufSt) (o : BufOp) (r : Nat) (hr : r < st.mem.length) (ho : LeavesAlone r o) :
    (st.step E junk o).mem.getD r [] = st.mem.getD r [] := step_mem o r hr ho

/-- The value of Unmarshal is that of the functional model (C01 to C06), read from an array the caller does not have -/
theorem C66_unmarshal (E : Env) (junk : Bytes → Bytes) (st : BufSt) (r : Nat) (hr : r ∈ st.mine) (v : V)
    (h : goUnmarshal E (st.mem.getD r []) = .ok (st.mem.getD r [], v, none)) :
    ∃ w, (st.step E junk (.unmarshal r)).vals = w :: st.vals ∧ w.read (st.step E junk (.unmarshal r)).mem = v := by
  have hb : (st.mem.getD r []).length ≠ 0 := by
    intro hb
    rw [goUnmarshal, if_pos hb] at h
    simp at h
  rw [goUnmarshal, if_neg hb] at h
  dsimp only at h
  simp only [BufSt.step]
  rw [if_pos hr]
  cases hu : unmarshalWithIterB E (copyBytes (List.replicate (st.mem.getD r []).length 0) (st.mem.getD r [])) with
  | ok x =>
    obtain ⟨it, pv⟩ := x
    rw [hu] at h
    simp only [finish, R.ok.injEq, Prod.mk.injEq, and_true, true_and] at h
    refine ⟨_, rfl, ?_⟩
    rw [read_inBuf, ← h]
    simp
  | err e => rw [hu] at h; simp [finish] at h
  | panic => rw [hu] at h; simp [finish] at h
  | diverge => rw [hu] at h; simp [finish] at h

/-- and so is that of UnmarshalNoCopy, read from the slice of the caller -/
theorem C66_unmarshal_no_copy (E : Env) (junk : Bytes → Bytes) (st : BufSt) (r : Nat) (hr : r ∈ st.mine) (hl : r < st.mem.length) (it : Bytes) (v : V)
    (h : goUnmarshalNoCopy E (st.mem.getD r []) = .ok (it, v, none)) :
    ∃ w, (st.step E junk (.unmarshalNoCopy r)).vals = w :: st.vals ∧ w.read (st.step E junk (.unmarshalNoCopy r)).mem = v ∧
      (st.step E junk (.unmarshalNoCopy r)).mem.getD r [] = it := by
  have hb : (st.mem.getD r []).length ≠ 0 := by
    intro hb
    rw [goUnmarshalNoCopy, if_pos hb] at h
    simp at h
  rw [goUnmarshalNoCopy, if_neg hb] at h
  simp only [BufSt.step]
  rw [if_pos hr]
  cases hu : unmarshalWithIterB E (st.mem.getD r []) with
  | ok x =>
    obtain ⟨it', pv⟩ := x
    rw [hu] at h
    simp only [finish, R.ok.injEq, Prod.mk.injEq, and_true] at h
    obtain ⟨rfl, rfl⟩ := h
    have hg : (st.mem.set r it').getD r [] = it' := by simp [List.getD, hl]
    exact ⟨_, rfl, by rw [read_inBuf, hg], hg⟩
  | err e => rw [hu] at h; simp [finish] at h
  | panic => rw [hu] at h; simp [finish] at h
  | diverge => rw [hu] at h; simp [finish] at h

/-- A write changes only values one of whose texts has the byte in it -/
theorem C66_write (mem : List Bytes) (r i : Nat) (c : UInt8) (v : MV) (h : ∀ x ∈ v.refs, x.buf = r → i < x.s ∨ x.e ≤ i) :
    v.read (mem.set r ((mem.getD r []).set i c)) = v.read mem := by
  refine read_congr v fun x hx => ?_
  unfold Ref.read
  by_cases hr : x.buf = r
  · subst hr
    by_cases hl : x.buf < mem.length
    · have hg : (mem.set x.buf ((mem.getD x.buf []).set i c)).getD x.buf [] = (mem.getD x.buf []).set i c := by simp [List.getD, hl]
      rw [hg]
      unfold sub
      rcases h x hx rfl with hi | hi
      · rw [List.drop_set_of_lt hi]
      · apply List.ext_getElem?
        intro j
        simp only [List.getElem?_take, List.getElem?_drop]
        split
        · rw [List.getElem?_set_ne (by omega)]
        · rfl
    · rw [List.set_eq_of_length_le (by omega)]
  · have : (mem.set r ((mem.getD r []).set i c)).getD x.buf [] = mem.getD x.buf [] := by simp [List.getD, List.getElem?_set_ne (Ne.symm hr)]
    rw [this]

/-- the state after some operations -/
def runBuf (E : Env) (os : List BufOp) : BufSt := os.foldl (BufSt.step E (leftB E)) {}

/-- the values as they read -/
def BufSt.contents (st : BufSt) : List V := st.vals.map (MV.read st.mem)

-- `b := []byte("[\"x\"]"); v, _ := Unmarshal(b); b[2] = 'y'` changes nothing
example : (runBuf sampleEnv [.make (asc "[\"x\"]"), .unmarshal 0, .write 0 2 0x79]).contents = [.arr [.str (asc "x")]] := by decide +kernel

/-- The restriction is needed: after UnmarshalNoCopy a write into the slice changes the value -/
theorem C66_no_copy_write : (runBuf sampleEnv [.make (asc "[\"x\"]"), .unmarshalNoCopy 0]).contents = [.arr [.str (asc "x")]] ∧
    (runBuf sampleEnv [.make (asc "[\"x\"]"), .unmarshalNoCopy 0, .write 0 2 0x79]).contents = [.arr [.str (asc "y")]] := by decide +kernel

/-- Parsing the same slice twice with UnmarshalNoCopy gives two different values, and the second call changes the first value -/
theorem C66_no_copy_twice : (runBuf sampleEnv [.make (asc "\"\\\\n\""), .unmarshalNoCopy 0]).contents = [.str (asc "\\n")] ∧
    (runBuf sampleEnv [.make (asc "\"\\\\n\""), .unmarshalNoCopy 0, .unmarshalNoCopy 0]).contents = [.str (asc "\nn"), .str (asc "\nn")] := by decide +kernel

/-- A copy made by Import shares the slice too -/
theorem C66_copy_shares : (runBuf sampleEnv [.make (asc "\"x\""), .unmarshalNoCopy 0, .build (.arr [.str ⟨0, 1, 2⟩]), .write 0 1 0x79]).contents =
    [.arr [.str (asc "y")], .str (asc "y")] := by decide +kernel

example : PoliteRun sampleEnv (leftB sampleEnv) {} [.make (asc "[\"x\"]"), .unmarshalNoCopy 0, .give (asc "1"), .write 1 0 0x30]
    (runBuf sampleEnv [.make (asc "[\"x\"]"), .unmarshalNoCopy 0, .give (asc "1"), .write 1 0 0x30]) := by
  refine .cons _ _ _ _ trivial (.cons _ _ _ _ (by unfold Polite; decide +kernel) (.cons _ _ _ _ trivial (.cons _ _ _ _ (by unfold Polite; decide +kernel) (.nil _))))

end JV
