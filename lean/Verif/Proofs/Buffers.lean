import Verif.Spec.Buffers
import Verif.Props.Parsing
namespace JV
open Spec

mutual
/-- a value depends on its ranges only -/
theorem read_congr {mem mem' : List Bytes} : ∀ v : MV, (∀ r ∈ v.refs, r.read mem = r.read mem') → v.read mem = v.read mem'
  | .nilp, _ => rfl
  | .notExist, _ => rfl
  | .str r, h => by simp only [MV.read, h r (by simp [MV.refs])]
  | .num r n, h => by simp only [MV.read, h r (by simp [MV.refs])]
  | .bool _, _ => rfl
  | .null, _ => rfl
  | .arr xs, h => by simp only [MV.read, read_congrL xs (by simpa only [MV.refs] using h)]
  | .obj i kvs, h => by simp only [MV.read, read_congrE kvs (by simpa only [MV.refs] using h)]
theorem read_congrL {mem mem' : List Bytes} : ∀ xs : List MV, (∀ r ∈ MV.refsL xs, r.read mem = r.read mem') → MV.readL mem xs = MV.readL mem' xs
  | [], _ => rfl
  | x :: xs, h => by
    rw [MV.readL, MV.readL, read_congr x fun r hr => h r (by rw [MV.refsL]; exact List.mem_append_left _ hr),
      read_congrL xs fun r hr => h r (by rw [MV.refsL]; exact List.mem_append_right _ hr)]
theorem read_congrE {mem mem' : List Bytes} : ∀ xs : List MEnt, (∀ r ∈ MV.refsE xs, r.read mem = r.read mem') → MV.readE mem xs = MV.readE mem' xs
  | [], _ => rfl
  | ⟨k, i, v⟩ :: xs, h => by
    rw [MV.readE, MV.readE, h k (by simp [MV.refsE]), read_congr v fun r hr => h r (by simp [MV.refsE, hr]),
      read_congrE xs fun r hr => h r (by simp [MV.refsE, hr])]
end

mutual
theorem refs_inBuf (b : Nat) : ∀ v : PV, ∀ r ∈ (v.inBuf b).refs, r.buf = b
  | .str s e => by intro r hr; simp only [PV.inBuf, MV.refs, List.mem_singleton] at hr; subst hr; rfl
  | .num s e n => by intro r hr; simp only [PV.inBuf, MV.refs, List.mem_singleton] at hr; subst hr; rfl
  | .bool _ => by intro r hr; cases hr
  | .null => by intro r hr; cases hr
  | .arr xs => refs_inBufL b xs
  | .obj i kvs => refs_inBufE b kvs
theorem refs_inBufL (b : Nat) : ∀ xs : List PV, ∀ r ∈ MV.refsL (PV.inBufL b xs), r.buf = b
  | [] => by intro r hr; cases hr
  | x :: xs => by
    intro r hr
    rw [PV.inBufL, MV.refsL, List.mem_append] at hr
    exact hr.elim (refs_inBuf b x r) (refs_inBufL b xs r)
theorem refs_inBufE (b : Nat) : ∀ xs : List PEnt, ∀ r ∈ MV.refsE (PV.inBufE b xs), r.buf = b
  | [] => by intro r hr; cases hr
  | ⟨s, e, i, v⟩ :: xs => by
    intro r hr
    rw [PV.inBufE, MV.refsE, List.mem_append, List.mem_cons] at hr
    rcases hr with (rfl | hr) | hr
    · rfl
    · exact refs_inBuf b v r hr
    · exact refs_inBufE b xs r hr
end

mutual
theorem read_inBuf (mem : List Bytes) (b : Nat) : ∀ v : PV, (v.inBuf b).read mem = v.res (mem.getD b [])
  | .str s e => rfl
  | .num s e n => rfl
  | .bool _ => rfl
  | .null => rfl
  | .arr xs => by rw [PV.inBuf, MV.read, PV.res, read_inBufL mem b xs]
  | .obj i kvs => by rw [PV.inBuf, MV.read, PV.res, read_inBufE mem b kvs]
theorem read_inBufL (mem : List Bytes) (b : Nat) : ∀ xs : List PV, MV.readL mem (PV.inBufL b xs) = PV.resL (mem.getD b []) xs
  | [] => rfl
  | x :: xs => by rw [PV.inBufL, MV.readL, PV.resL, read_inBuf mem b x, read_inBufL mem b xs]
theorem read_inBufE (mem : List Bytes) (b : Nat) : ∀ xs : List PEnt, MV.readE mem (PV.inBufE b xs) = PV.resE (mem.getD b []) xs
  | [] => rfl
  | ⟨s, e, i, v⟩ :: xs => by rw [PV.inBufE, MV.readE, PV.resE, read_inBuf mem b v, read_inBufE mem b xs]; rfl
end

/-- what the caller can write to is referred to only after UnmarshalNoCopy -/
structure Guarded (st : BufSt) : Prop where
  mine : ∀ r ∈ st.mine, r < st.mem.length
  refs : ∀ v ∈ st.vals, ∀ r ∈ v.refs, r.buf < st.mem.length ∧ (r.buf ∈ st.mine → r.buf ∈ st.lent)

theorem guarded_new : Guarded {} := ⟨fun r hr => by simp at hr, fun v hv => by simp at hv⟩

/-- a new array for the caller -/
theorem Guarded.give {st : BufSt} (h : Guarded st) (bs : Bytes) : Guarded { st with mem := st.mem ++ [bs], mine := st.mem.length :: st.mine } := by
  refine ⟨fun r hr => ?_, fun v hv r hr => ?_⟩
  · simp only [List.mem_cons, List.length_append, List.length_singleton] at hr ⊢
    rcases hr with rfl | hr
    · omega
    · have := h.mine r hr; omega
  · obtain ⟨h1, h2⟩ := h.refs v hv r hr
    refine ⟨by simp only [List.length_append, List.length_singleton]; omega, fun hm => ?_⟩
    simp only [List.mem_cons] at hm
    rcases hm with hm | hm
    · omega
    · exact h2 hm

/-- a new array of the library, and perhaps a value in it -/
theorem Guarded.keep {st : BufSt} (h : Guarded st) (bs : Bytes) (ws : List MV) (hw : ∀ w ∈ ws, ∀ r ∈ w.refs, r.buf = st.mem.length) :
    Guarded { st with mem := st.mem ++ [bs], vals := ws ++ st.vals } := by
  refine ⟨fun r hr => ?_, fun v hv r hr => ?_⟩
  · have := h.mine r hr
    simp only [List.length_append, List.length_singleton]; omega
  · simp only [List.mem_append] at hv
    simp only [List.length_append, List.length_singleton]
    rcases hv with hv | hv
    · have hb := hw v hv r hr
      refine ⟨by omega, fun hm => ?_⟩
      have := h.mine _ hm
      omega
    · obtain ⟨h1, h2⟩ := h.refs v hv r hr
      exact ⟨by omega, h2⟩

/-- the contents of an array change -/
theorem Guarded.change {st : BufSt} (h : Guarded st) (r : Nat) (bs : Bytes) : Guarded { st with mem := st.mem.set r bs } :=
  ⟨fun r hr => by simpa using h.mine r hr, fun v hv r hr => by simpa using h.refs v hv r hr⟩

theorem guarded_step {E : Env} {junk : Bytes → Bytes} {st : BufSt} (h : Guarded st) (o : BufOp) (ho : Assembles st o) : Guarded (st.step E junk o) := by
  cases o with
  | make bs => exact h.give bs
  | give bs => exact h.give bs
  | write r i c =>
    simp only [BufSt.step]
    by_cases hr : r ∈ st.mine
    · rw [if_pos hr]; exact h.change _ _
    · rw [if_neg hr]; exact h
  | unmarshal r =>
    simp only [BufSt.step]
    by_cases hr : r ∈ st.mine
    · rw [if_pos hr]
      split
      · exact h.keep _ [_] fun w hw => by rw [List.mem_singleton] at hw; subst hw; exact refs_inBuf _ _
      · exact h.keep _ [] fun w hw => by cases hw
    · rw [if_neg hr]; exact h
  | unmarshalString s =>
    simp only [BufSt.step]
    split
    · exact h.keep _ [_] fun w hw => by rw [List.mem_singleton] at hw; subst hw; exact refs_inBuf _ _
    · exact h.keep _ [] fun w hw => by cases hw
  | unmarshalNoCopy r =>
    simp only [BufSt.step]
    by_cases hr : r ∈ st.mine
    · rw [if_pos hr]
      split
      · have hc := h.change r
        rename_i it pv _
        refine ⟨(hc it).mine, fun v hv r' hr' => ?_⟩
        simp only [List.mem_cons] at hv
        rcases hv with rfl | hv
        · rw [refs_inBuf r pv r' hr']
          exact ⟨(hc it).mine r hr, fun _ => .head _⟩
        · obtain ⟨h1, h2⟩ := (hc it).refs v hv r' hr'
          exact ⟨h1, fun hm => .tail _ (h2 hm)⟩
      · exact h.change _ _
    · rw [if_neg hr]; exact h
  | newString s => exact h.keep _ [_] fun w hw => by rw [List.mem_singleton] at hw; subst hw; intro r hr; simp only [MV.refs, List.mem_singleton] at hr; subst hr; rfl
  | newNum t n => exact h.keep _ [_] fun w hw => by rw [List.mem_singleton] at hw; subst hw; intro r hr; simp only [MV.refs, List.mem_singleton] at hr; subst hr; rfl
  | build w =>
    refine ⟨h.mine, fun v hv r hr => ?_⟩
    simp only [BufSt.step, List.mem_cons] at hv
    rcases hv with rfl | hv
    · obtain ⟨v, hv, hr⟩ := ho r hr
      exact h.refs v hv r hr
    · exact h.refs v hv r hr

/-- the values stay -/
theorem step_vals {E : Env} {junk : Bytes → Bytes} {st : BufSt} (o : BufOp) : ∀ v ∈ st.vals, v ∈ (st.step E junk o).vals := by
  intro v hv
  cases o <;> simp only [BufSt.step] <;> (repeat' split) <;> first | exact hv | exact .tail _ hv

/-- arrays the operation leaves alone have the same contents -/
theorem step_mem {E : Env} {junk : Bytes → Bytes} {st : BufSt} (o : BufOp) (r : Nat) (hr : r < st.mem.length) (ho : LeavesAlone r o) :
    (st.step E junk o).mem.getD r [] = st.mem.getD r [] := by
  have happ : ∀ bs : Bytes, (st.mem ++ [bs]).getD r [] = st.mem.getD r [] := by
    intro bs; simp [List.getD, List.getElem?_append_left hr]
  have hset : ∀ (r' : Nat) (bs : Bytes), r' ≠ r → (st.mem.set r' bs).getD r [] = st.mem.getD r [] := by
    intro r' bs hn; simp [List.getD, List.getElem?_set_ne hn]
  cases o <;> simp only [BufSt.step] <;> (repeat' split) <;> first | rfl | exact happ _ | exact hset _ _ ho

theorem polite_assembles {st : BufSt} {o : BufOp} (h : Polite st o) : Assembles st o := by
  cases o <;> first | trivial | exact h

theorem polite_step {E : Env} {junk : Bytes → Bytes} {st : BufSt} (hg : Guarded st) (o : BufOp) (ho : Polite st o) (v : MV) (hv : v ∈ st.vals) :
    v.read (st.step E junk o).mem = v.read st.mem := by
  refine read_congr v fun r hr => ?_
  obtain ⟨h1, h2⟩ := hg.refs v hv r hr
  have key : (st.step E junk o).mem.getD r.buf [] = st.mem.getD r.buf [] := by
    by_cases hl : LeavesAlone r.buf o
    · exact step_mem o _ h1 hl
    · cases o with
      | write r' i c =>
        have hr' : r' = r.buf := Decidable.not_not.1 hl
        subst hr'
        simp only [BufSt.step]
        rw [if_neg fun hm => ho (h2 hm)]
      | unmarshalNoCopy r' =>
        have hr' : r' = r.buf := Decidable.not_not.1 hl
        subst hr'
        simp only [BufSt.step]
        rw [if_neg fun hm => ho (h2 hm)]
      | _ => exact absurd trivial hl
  rw [Ref.read, Ref.read, key]

theorem polite_guarded {E : Env} {junk : Bytes → Bytes} {st st' : BufSt} {os : List BufOp} (hr : PoliteRun E junk st os st') (hg : Guarded st) : Guarded st' := by
  induction hr with
  | nil => exact hg
  | cons st o os st' h _ ih => exact ih (guarded_step hg o (polite_assembles h))

theorem any_guarded {E : Env} {junk : Bytes → Bytes} {st st' : BufSt} {os : List BufOp} (hr : AnyRun E junk st os st') (hg : Guarded st) : Guarded st' := by
  induction hr with
  | nil => exact hg
  | cons st o os st' h _ ih => exact ih (guarded_step hg o h)

theorem polite_keeps {E : Env} {junk : Bytes → Bytes} {st st' : BufSt} {os : List BufOp} (hr : PoliteRun E junk st os st') (hg : Guarded st) :
    ∀ v ∈ st.vals, v ∈ st'.vals ∧ v.read st'.mem = v.read st.mem := by
  induction hr with
  | nil => exact fun v hv => ⟨hv, rfl⟩
  | cons st o os st' h _ ih =>
    intro v hv
    obtain ⟨h1, h2⟩ := ih (guarded_step hg o (polite_assembles h)) v (step_vals o v hv)
    exact ⟨h1, h2.trans (polite_step hg o h v hv)⟩

theorem copies_lent {E : Env} {junk : Bytes → Bytes} {st : BufSt} {o : BufOp} (ho : Copies o) (h : st.lent = []) : (st.step E junk o).lent = [] := by
  cases o <;> simp only [BufSt.step] <;> (repeat' split) <;> first | exact h | cases ho

theorem copies_run {E : Env} {junk : Bytes → Bytes} {st st' : BufSt} {os : List BufOp} (hr : AnyRun E junk st os st') (hc : ∀ o ∈ os, Copies o) (h : st.lent = []) :
    st'.lent = [] ∧ PoliteRun E junk st os st' := by
  induction hr with
  | nil => exact ⟨h, .nil _⟩
  | cons st o os st' ha _ ih =>
    have hco := hc o (by simp)
    obtain ⟨h1, h2⟩ := ih (fun o ho => hc o (by simp [ho])) (copies_lent hco h)
    refine ⟨h1, .cons _ _ _ _ ?_ h2⟩
    cases o with
    | write => simp [Polite, h]
    | unmarshalNoCopy => cases hco
    | build => exact ha
    | _ => trivial

end JV
