import Verif.Model.Message
import Verif.Proofs.Errors
/-! Forgetting messages and positions gives the parser of `Model/Parse`. -/
namespace JV

/-- without messages -/
def RM.forget {α β : Type} (g : α → β) : RM α → R β
  | .ok a => .ok (g a)
  | .err m => .err m.err
  | .panic => .panic
  | .diverge => .diverge

@[simp] theorem forget_ok {α β : Type} (g : α → β) (a : α) : (RM.ok a).forget g = .ok (g a) := rfl
@[simp] theorem forget_err {α β : Type} (g : α → β) (m : Msg) : (RM.err m : RM α).forget g = .err m.err := rfl
@[simp] theorem forget_diverge {α β : Type} (g : α → β) : (RM.diverge : RM α).forget g = .diverge := rfl

theorem forget_bind {α β γ δ : Type} {x : RM α} {y : R γ} {k : α → RM β} {k' : γ → R δ} (h : α → γ) {g : β → δ} (hx : x.forget h = y)
    (hk : ∀ a, (k a).forget g = k' (h a)) : (x >>= k).forget g = y >>= k' := by
  subst hx
  cases x with
  | ok a => exact hk a
  | err m => rfl
  | panic => rfl
  | diverge => rfl

theorem forget_withMsg {α : Type} {m : Msg} {x : R α} (h : ∀ e, x = .err e → e = m.err) : (x.withMsg m).forget id = x := by
  cases x with
  | ok a => rfl
  | err e => exact (congrArg R.err (h e rfl)).symm
  | panic => rfl
  | diverge => rfl

theorem skipBlanksM_snd (p : Nat) (s : Bytes) : (skipBlanksM p s).2 = skipBlanks s := by
  induction s generalizing p with
  | nil => rfl
  | cons c t ih => rw [skipBlanksM, skipBlanks]; split
                   · exact ih _
                   · rfl

theorem hex4M_forget (a b c d : UInt8) : (hex4M a b c d).forget id = hex4 a b c d := by
  unfold hex4M hex4
  cases chrToHex a <;> cases chrToHex b <;> cases chrToHex c <;> cases chrToHex d <;> rfl

theorem escUnicodeM_forget (p : Nat) (s : Bytes) : (escUnicodeM p s).forget (fun x => (x.1, x.2.2)) = escUnicode s := by
  rcases s with _ | ⟨a, _ | ⟨b, _ | ⟨c, _ | ⟨d, _ | ⟨x, t⟩⟩⟩⟩⟩ <;> try rfl
  rw [escUnicodeM, escUnicode]
  refine forget_bind id (hex4M_forget ..) fun r => ?_
  simp only [id]
  by_cases hr : r ≤ 0xD7FF ∨ r ≥ 0xE000
  · rw [if_pos hr, if_pos hr]; rfl
  · rw [if_neg hr, if_neg hr]
    rcases t with _ | ⟨q, _ | ⟨a', _ | ⟨b', _ | ⟨c', _ | ⟨d', _ | ⟨y, t⟩⟩⟩⟩⟩⟩ <;> try rfl
    dsimp only
    by_cases hx : x ≠ 0x5C
    · rw [if_pos hx, if_pos hx]; rfl
    · rw [if_neg hx, if_neg hx]
      by_cases hq : q ≠ 0x75
      · rw [if_pos hq, if_pos hq]; rfl
      · rw [if_neg hq, if_neg hq]
        refine forget_bind id (hex4M_forget ..) fun ex => ?_
        exact forget_bind id (forget_withMsg fun e he => (surrogatePair_err he).1) fun r => rfl

theorem shiftM_forget (p : Nat) (s : Bytes) (n : Nat) : (shiftM p s n).forget (fun x => (x.1, x.2.2)) = shiftA s n := by
  unfold shiftM shiftA; split <;> rfl

theorem strStepM_forget (p : Nat) (c : UInt8) (t : Bytes) : (strStepM p c t).forget (Option.map fun x => (x.1, x.2.2)) = strStep c t := by
  unfold strStepM strStep
  split
  · cases t with
    | nil => rfl
    | cons e t =>
      dsimp only
      cases he : simpleEsc e with
      | some b => rfl
      | none =>
        dsimp only
        split
        · exact forget_bind (fun x : Bytes × Nat × Bytes => (x.1, x.2.2)) (escUnicodeM_forget ..) fun a => rfl
        · rfl
  · split
    · rfl
    · split
      · rfl
      · split
        · exact forget_bind (fun x : Bytes × Nat × Bytes => (x.1, x.2.2)) (shiftM_forget ..) fun a => rfl
        · split
          · exact forget_bind (fun x : Bytes × Nat × Bytes => (x.1, x.2.2)) (shiftM_forget ..) fun a => rfl
          · split
            · exact forget_bind (fun x : Bytes × Nat × Bytes => (x.1, x.2.2)) (shiftM_forget ..) fun a => rfl
            · rfl

theorem strLoopM_forget (f p : Nat) (s acc : Bytes) : (strLoopM f p s acc).forget (fun x => (x.1, x.2.2)) = strLoop f s acc := by
  induction f generalizing p s acc with
  | zero => rfl
  | succ f ih =>
    cases s with
    | nil => rfl
    | cons c t =>
      rw [strLoopM, strLoop]
      refine forget_bind _ (strStepM_forget ..) fun a => ?_
      cases a with
      | none => rfl
      | some x => exact ih ..

theorem numLoopM_forget (p : Nat) (acc : Bytes) (st : NumSt) (s : Bytes) : (numLoopM p acc st s).forget id = numLoop acc st s := by
  induction s generalizing acc st with
  | nil => rfl
  | cons b t ih =>
    rw [numLoopM, numLoop]
    refine forget_bind id (forget_withMsg fun e he => ?_) fun a => ?_
    · unfold numStep at he
      repeat' split at he
      all_goals first | (cases he; done) | (cases he; rfl)
    · cases a with
      | none => rfl
      | some st => exact ih ..

theorem parseNumberM_forget (E : Env) (p : Nat) (s : Bytes) : (parseNumberM E p s).forget (fun x => (x.1, x.2.1, x.2.2.2)) = parseNumber E s := by
  unfold parseNumberM parseNumber
  refine forget_bind id (numLoopM_forget ..) fun ⟨st, text, rest⟩ => ?_
  simp only [id]
  split
  · split
    · rfl
    · refine forget_bind id (forget_withMsg fun e he => ?_) fun a => rfl
      unfold floatResult at he
      split at he <;> cases he; rfl
  · refine forget_bind id (forget_withMsg fun e he => ?_) fun a => ?_
    · unfold rd at he
      split at he <;> cases he
    · simp only [id]
      split
      · rfl
      · split
        · rfl
        · refine forget_bind id (forget_withMsg fun e he => ?_) fun a => rfl
          unfold intResult positiveIntResult negativeIntResult at he
          repeat' split at he
          all_goals first | (cases he; done) | (cases he; rfl)

theorem parseLitM_forget (p : Nat) (s lit : Bytes) (a b : Msg) : (parseLitM p s lit a b).forget (fun x => x.2) = parseLit s lit a.err b.err := by
  unfold parseLitM parseLit; split
  · rfl
  · split <;> rfl

theorem parseScalarM_forget (E : Env) (f p : Nat) (c : UInt8) (t : Bytes) : (parseScalarM E f p c t).forget (Option.map fun x => (x.1, x.2.2)) = parseScalar E f c t := by
  unfold parseScalarM parseScalar
  split
  · exact forget_bind _ (parseNumberM_forget ..) fun a => rfl
  · split
    · exact forget_bind _ (strLoopM_forget ..) fun a => rfl
    · split
      · exact forget_bind _ (parseLitM_forget ..) fun a => rfl
      · split
        · exact forget_bind _ (parseLitM_forget ..) fun a => rfl
        · split
          · exact forget_bind _ (parseLitM_forget ..) fun a => rfl
          · rfl

theorem loopM_forget (E : Env) (f : Nat) :
    (∀ p s acc, (arrLoopM E f p s acc).forget (fun x => (x.1, x.2.2)) = arrLoop E f s acc) ∧
    (∀ p s st ks, (objLoopM E f p s st ks).forget (fun x => (x.1, x.2.2)) = objLoop E f s st) := by
  induction f with
  | zero => exact ⟨fun p s acc => by rw [arrLoopM, arrLoop]; rfl, fun p s st ks => by rw [objLoopM, objLoop]; rfl⟩
  | succ f ih =>
    obtain ⟨iha, iho⟩ := ih
    constructor
    · intro p s acc
      rw [arrLoopM, arrLoop]
      have hb := skipBlanksM_snd p s
      rcases hsk : skipBlanksM p s with ⟨q, u⟩
      rw [hsk] at hb; dsimp only at hb; rw [← hb]
      cases u with
      | nil => rfl
      | cons c t =>
        dsimp only
        split
        · rfl
        · split
          · exact iha ..
          · split
            · exact forget_bind _ (iho ..) fun a => iha ..
            · split
              · exact forget_bind _ (iha ..) fun a => iha ..
              · refine forget_bind _ (parseScalarM_forget ..) fun a => ?_
                cases a with
                | none => rfl
                | some x => exact iha ..
    · intro p s st ks
      rw [objLoopM, objLoop]
      have hb := skipBlanksM_snd p s
      rcases hsk : skipBlanksM p s with ⟨q, u⟩
      rw [hsk] at hb; dsimp only at hb; rw [← hb]
      cases u with
      | nil => rfl
      | cons c t =>
        dsimp only
        split
        · split <;> simp_all <;> rfl
        · split
          · split <;> simp_all
            rfl
          · split
            · split
              · rfl
              · split <;> simp_all
                rfl
            · split
              · cases hk : st.key with
                | some k =>
                  dsimp only
                  split
                  · rfl
                  · exact forget_bind _ (strLoopM_forget ..) fun a => iho ..
                | none => exact forget_bind _ (strLoopM_forget ..) fun a => iho ..
              · split
                · cases hk : st.key with
                  | none => rfl
                  | some k =>
                    dsimp only
                    split
                    · rfl
                    · split
                      · exact forget_bind _ (iho ..) fun a => iho ..
                      · split
                        · exact forget_bind _ (iha ..) fun a => iho ..
                        · refine forget_bind _ (parseScalarM_forget ..) fun a => ?_
                          cases a with
                          | none => rfl
                          | some x => exact iho ..
                · rfl

theorem parseValueM_forget (E : Env) (f p : Nat) (c : UInt8) (t : Bytes) : (parseValueM E f p c t).forget (fun x => (x.1, x.2.2)) = parseValue E f c t := by
  unfold parseValueM parseValue
  split
  · exact (loopM_forget E f).2 ..
  · split
    · exact (loopM_forget E f).1 ..
    · refine forget_bind _ (parseScalarM_forget ..) fun a => ?_
      cases a <;> rfl

theorem unmarshalM_forget (E : Env) (s : Bytes) : (unmarshalM E s).forget id = unmarshal E s := by
  unfold unmarshalM unmarshal
  split
  · rfl
  · unfold unmarshalWithIterM unmarshalWithIter
    have hb := skipBlanksM_snd 0 s
    rcases hsk : skipBlanksM 0 s with ⟨q, u⟩
    rw [hsk] at hb; dsimp only at hb; rw [← hb]
    cases u with
    | nil => rfl
    | cons c t =>
      dsimp only
      refine forget_bind _ (parseValueM_forget ..) fun ⟨v, p, t⟩ => ?_
      have hb := skipBlanksM_snd p t
      rcases hsk : skipBlanksM p t with ⟨q, u⟩
      rw [hsk] at hb; dsimp only at hb
      dsimp only
      rw [← hb]
      cases u <;> rfl

end JV
