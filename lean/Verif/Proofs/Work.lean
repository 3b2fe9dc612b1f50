import Verif.Model.Work
import Verif.Spec.Work
import Verif.Proofs.LeftBuf
/-!
Bounds for the work of Unmarshal.
-/
namespace JV
open Spec

@[simp] theorem Work.ops_tick (n : Nat) : (Work.tick n).ops = n := rfl
@[simp] theorem Work.ops_seq (a b : Work) : (a.seq b).ops = a.ops + b.ops := rfl
@[simp] theorem Work.ops_call (a : Work) : a.call.ops = a.ops := rfl
@[simp] theorem Work.depth_tick (n : Nat) : (Work.tick n).depth = 0 := rfl
@[simp] theorem Work.depth_seq (a b : Work) : (a.seq b).depth = max a.depth b.depth := rfl
@[simp] theorem Work.depth_call (a : Work) : a.call.depth = a.depth + 1 := rfl

theorem skipWork_nil {s : Bytes} (h : skipBlanks s = []) : skipWork s = s.length := by
  induction s with
  | nil => rfl
  | cons c s ih =>
    simp only [skipBlanks] at h
    simp only [skipWork, List.length_cons]
    split at h
    · rename_i hb; rw [if_pos hb, ih h]
    · cases h

theorem skipWork_cons {s t : Bytes} {c : UInt8} (h : skipBlanks s = c :: t) : skipWork s + t.length = s.length := by
  induction s with
  | nil => cases h
  | cons d s ih =>
    simp only [skipBlanks] at h
    simp only [skipWork, List.length_cons]
    split at h
    · rename_i hb; rw [if_pos hb]; have := ih h; omega
    · rename_i hb; cases h; rw [if_neg hb]; omega

theorem skipWork_pos {s t : Bytes} {c : UInt8} (h : skipBlanks s = c :: t) : 1 ≤ skipWork s := by
  cases s with
  | nil => cases h
  | cons d s =>
    simp only [skipWork]
    split <;> omega

theorem skipWork_le (s : Bytes) : skipWork s ≤ s.length := by
  cases h : skipBlanks s with
  | nil => rw [skipWork_nil h]; omega
  | cons c t => have := skipWork_cons h; omega

theorem runeBytes_le4 (r : Nat) : (runeBytes r).length ≤ 4 := by
  unfold runeBytes
  repeat' split
  all_goals simp

theorem uniWork_le (t : Bytes) : uniWork t ≤ 14 := by
  unfold uniWork
  split
  · rename_i a b c d x t
    cases hex4 a b c d with
    | ok r =>
      simp only
      have := runeBytes_le4 r
      split
      · omega
      · split
        · rename_i q a b c d _ _
          split
          · omega
          · split
            · omega
            · cases hex4 a b c d with
              | ok ex =>
                simp only
                cases surrogatePair r ex with
                | ok r' => simp only; have := runeBytes_le4 r'; omega
                | _ => simp only; omega
              | _ => simp only; omega
        · omega
    | _ => simp only; omega
  · omega

theorem escUnicode_len {t bs t' : Bytes} (h : escUnicode t = .ok (bs, t')) : t'.length + 4 ≤ t.length ∧ bs.length ≤ 4 := by
  unfold escUnicode at h
  split at h
  · rename_i a b c d x t
    obtain ⟨r, -, h⟩ := bind_inv h
    split at h
    · cases h
      have := runeBytes_le4 r
      simp; omega
    · split at h
      · split at h
        · cases h
        · split at h
          · cases h
          · obtain ⟨ex, -, h⟩ := bind_inv h
            obtain ⟨r', -, h⟩ := bind_inv h
            cases h
            have := runeBytes_le4 r'
            simp; omega
      · cases h
  · cases h

theorem shiftA_len {s a b : Bytes} {n : Nat} (h : shiftA s n = .ok (a, b)) : a.length = n ∧ b.length + n = s.length := by
  unfold shiftA at h
  split at h
  · cases h
  · cases h
    simp; omega

theorem strStepWork_le (c : UInt8) (t : Bytes) : strStepWork c t ≤ 16 := by
  unfold strStepWork shiftWork
  have := fun t => uniWork_le t
  repeat' split
  all_goals first | omega | (have := uniWork_le ‹_›; omega)

theorem strStep_closes {c : UInt8} {t : Bytes} (h : strStep c t = .ok none) : c = 0x22 := by
  unfold strStep at h
  repeat' split at h
  all_goals first | (cases h; done) | assumption | skip
  all_goals (obtain ⟨_, _, h⟩ := bind_inv h; cases h)

theorem strStep_len {c : UInt8} {t bs t' : Bytes} (h : strStep c t = .ok (some (bs, t'))) :
    strStepWork c t + 3 * t'.length ≤ 3 * (t.length + 1) ∧ bs.length + t'.length ≤ t.length + 1 ∧ t'.length ≤ t.length := by
  unfold strStep at h
  unfold strStepWork
  split at h
  · rename_i hc
    rw [if_pos hc]
    cases t with
    | nil => cases h
    | cons e t =>
      simp only at h ⊢
      cases he : simpleEsc e with
      | some b =>
        rw [he] at h
        cases h
        simp; omega
      | none =>
        rw [he] at h
        simp only at h ⊢
        split at h
        · rename_i hu
          rw [if_pos hu]
          obtain ⟨⟨x, y⟩, h1, h2⟩ := bind_inv h
          cases h2
          have := escUnicode_len h1
          have := uniWork_le t
          simp only [List.length_cons]
          omega
        · cases h
  · rename_i h1
    rw [if_neg h1]
    split at h
    · cases h
    · rename_i h2
      rw [if_neg h2]
      split at h
      · rename_i h3
        rw [if_pos h3]
        cases h
        simp; omega
      · rename_i h3
        rw [if_neg h3]
        split at h
        · rename_i h4
          rw [if_pos h4]
          obtain ⟨⟨x, y⟩, h5, h6⟩ := bind_inv h
          cases h6
          have := shiftA_len h5
          unfold shiftWork
          simp only [List.length_cons] at this ⊢
          split <;> omega
        · rename_i h4
          rw [if_neg h4]
          split at h
          · rename_i h4
            rw [if_pos h4]
            obtain ⟨⟨x, y⟩, h5, h6⟩ := bind_inv h
            cases h6
            have := shiftA_len h5
            unfold shiftWork
            simp only [List.length_cons] at this ⊢
            split <;> omega
          · rename_i h4
            rw [if_neg h4]
            split at h
            · rename_i h4
              rw [if_pos h4]
              obtain ⟨⟨x, y⟩, h5, h6⟩ := bind_inv h
              cases h6
              have := shiftA_len h5
              unfold shiftWork
              simp only [List.length_cons] at this ⊢
              split <;> omega
            · cases h

theorem strWork_bound : ∀ (f : Nat) (s acc : Bytes), match strLoop f s acc with
    | .ok (a, r) => strWork f s + 3 * r.length ≤ 3 * s.length ∧ a.length + r.length + 1 ≤ acc.length + s.length
    | _ => strWork f s ≤ 3 * s.length + 16 := by
  intro f
  induction f with
  | zero => intro s acc; simp [strLoop, strWork]
  | succ f ih =>
    intro s acc
    cases s with
    | nil => simp [strLoop, strWork]
    | cons c t =>
      simp only [strLoop, strWork]
      have hle := strStepWork_le c t
      cases hs : strStep c t with
      | ok o =>
        cases o with
        | none =>
          have := strStep_closes hs
          subst this
          simp [strStepWork, R.bind_ok, R.pure_eq]
          omega
        | some p =>
          obtain ⟨bs, t'⟩ := p
          simp only [R.bind_ok]
          have h1 := strStep_len hs
          have h2 := ih t' (acc ++ bs)
          cases hl : strLoop f t' (acc ++ bs) with
          | ok q =>
            rw [hl] at h2
            simp only [List.length_append, List.length_cons] at h2 ⊢
            omega
          | _ => rw [hl] at h2; simp only [List.length_cons] at h2 ⊢; omega
      | err e => simp only [R.bind_err, List.length_cons]; omega
      | panic => simp only [R.bind_panic, List.length_cons]; omega
      | diverge => simp only [R.bind_diverge, List.length_cons]; omega

theorem numLoopWork_bound : ∀ (s acc : Bytes) (st : NumSt), numLoopWork acc st s ≤ s.length ∧ ∀ st' text r, numLoop acc st s = .ok (st', text, r) →
    numLoopWork acc st s + r.length ≤ s.length + 1 ∧ text.length + r.length = acc.length + s.length := by
  intro s
  induction s with
  | nil =>
    intro acc st
    refine ⟨by simp [numLoopWork], fun st' text r h => ?_⟩
    simp only [numLoop] at h
    cases h
    simp [numLoopWork]
  | cons b t ih =>
    intro acc st
    simp only [numLoopWork, numLoop, List.length_cons]
    cases hs : numStep acc.length st b with
    | ok o =>
      cases o with
      | none =>
        simp only [R.bind_ok]
        refine ⟨by omega, fun st' text r h => ?_⟩
        cases h
        simp; omega
      | some st2 =>
        simp only [R.bind_ok]
        obtain ⟨h1, h2⟩ := ih (acc ++ [b]) st2
        refine ⟨by omega, fun st' text r h => ?_⟩
        have := h2 st' text r h
        simp only [List.length_append, List.length_cons, List.length_nil] at this
        omega
    | err e => exact ⟨by simp only; omega, fun _ _ _ h => by cases h⟩
    | panic => exact ⟨by simp only; omega, fun _ _ _ h => by cases h⟩
    | diverge => exact ⟨by simp only; omega, fun _ _ _ h => by cases h⟩

theorem parseNumber_inv {E : Env} {s : Bytes} {n : Num} {text r : Bytes} (h : parseNumber E s = .ok (n, text, r)) : ∃ st, numLoop [] {} s = .ok (st, text, r) := by
  unfold parseNumber at h
  obtain ⟨⟨st, text', r'⟩, h1, h⟩ := bind_inv h
  refine ⟨st, ?_⟩
  simp only at h
  split at h
  · split at h
    · cases h
    · obtain ⟨_, _, h⟩ := bind_inv h
      cases h
      exact h1
  · obtain ⟨b, _, h⟩ := bind_inv h
    split at h
    · cases h
    · split at h
      · cases h
      · obtain ⟨_, _, h⟩ := bind_inv h
        cases h
        exact h1

theorem numWork_le (s : Bytes) : numWork s ≤ 2 * s.length + 3 ∧ ∀ st text r, numLoop [] {} s = .ok (st, text, r) → numWork s + 2 * r.length ≤ 2 * s.length + 3 := by
  obtain ⟨h1, h2⟩ := numLoopWork_bound s [] {}
  unfold numWork
  cases hl : numLoop [] {} s with
  | ok q =>
    obtain ⟨st, text, r⟩ := q
    have h3 := h2 st text r hl
    simp only [List.length_nil] at h3 ⊢
    have hw : (if st.floated = true then (if (st.dotGot && !st.intAfterDotGot) = true then 0 else text.length) else 2) ≤ text.length + 2 := by
      repeat' split
      all_goals omega
    refine ⟨by omega, ?_⟩
    intro st' text' r' h
    cases h
    omega
  | err e => exact ⟨by simp only; omega, fun _ _ _ h => by cases h⟩
  | panic => exact ⟨by simp only; omega, fun _ _ _ h => by cases h⟩
  | diverge => exact ⟨by simp only; omega, fun _ _ _ h => by cases h⟩

theorem parseLit_len {s lit r : Bytes} {e1 e2 : Err} (h : parseLit s lit e1 e2 = .ok r) : r.length + lit.length = s.length := by
  unfold parseLit at h
  split at h
  · cases h
  · split at h
    · cases h; simp; omega
    · cases h

/-- a value other than objects and arrays: what it costs -/
theorem scalarWork_bound (E : Env) (f : Nat) (c : UInt8) (t : Bytes) : scalarWork f c t ≤ 7 * t.length + 30 ∧
    ∀ v r, parseScalar E f c t = .ok (some (v, r)) → scalarWork f c t + 7 * r.length ≤ 7 * t.length + 5 := by
  unfold scalarWork parseScalar
  split
  · rename_i hc
    obtain ⟨h1, h2⟩ := numWork_le (c :: t)
    simp only [List.length_cons] at h1 h2
    refine ⟨by omega, fun v r h => ?_⟩
    obtain ⟨⟨n, text, r'⟩, h3, h⟩ := bind_inv h
    cases h
    obtain ⟨st, h4⟩ := parseNumber_inv h3
    have h5 := parseNumber_rest hc h3
    have := h2 _ _ _ h4
    simp only [List.length_cons] at h5
    omega
  · split
    · have h1 := strWork_bound f t []
      cases hs : strLoop f t [] with
      | ok q =>
        obtain ⟨a, r⟩ := q
        rw [hs] at h1
        simp only at h1
        refine ⟨by omega, fun v r h => ?_⟩
        cases h
        omega
      | err e => rw [hs] at h1; simp only at h1; exact ⟨by omega, fun _ _ h => by cases h⟩
      | panic => rw [hs] at h1; simp only at h1; exact ⟨by omega, fun _ _ h => by cases h⟩
      | diverge => rw [hs] at h1; simp only at h1; exact ⟨by omega, fun _ _ h => by cases h⟩
    · have key : ∀ (lit : Bytes) (e1 e2 : Err) (w : V), 2 ≤ lit.length → lit.length ≤ 5 → litWork (c :: t) lit ≤ 7 * t.length + 30 ∧ ∀ v r,
          (do let rest ← parseLit (c :: t) lit e1 e2; pure (some (w, rest)) : R (Option (V × Bytes))) = .ok (some (v, r)) → litWork (c :: t) lit + 7 * r.length ≤ 7 * t.length + 5 := by
        intro lit e1 e2 w h1 h2
        have h3 : litWork (c :: t) lit ≤ lit.length := by unfold litWork; split <;> omega
        refine ⟨by omega, fun v r h => ?_⟩
        obtain ⟨r', h4, h⟩ := bind_inv h
        cases h
        have := parseLit_len h4
        simp only [List.length_cons] at this
        omega
      split
      · exact key _ _ _ _ (by decide) (by decide)
      · split
        · exact key _ _ _ _ (by decide) (by decide)
        · split
          · exact key _ _ _ _ (by decide) (by decide)
          · exact ⟨by omega, fun _ _ h => by cases h⟩

/-- the length of the key that waits for its value -/
def OSt.pending (st : OSt) : Nat := match st.key with | some k => k.length | none => 0

theorem loopWork_bound (E : Env) : ∀ f : Nat,
    (∀ s acc, (arrWork E f s acc).ops ≤ 7 * s.length + 40 ∧ ∀ v r, arrLoop E f s acc = .ok (v, r) → (arrWork E f s acc).ops + 7 * r.length ≤ 7 * s.length) ∧
    (∀ s st, (objWork E f s st).ops ≤ 7 * s.length + st.pending + 40 ∧
      ∀ v r, objLoop E f s st = .ok (v, r) → (objWork E f s st).ops + 7 * r.length ≤ 7 * s.length + st.pending) := by
  intro f
  induction f with
  | zero =>
    constructor
    · intro s acc; exact ⟨by simp [arrWork], fun _ _ h => by simp [arrLoop] at h⟩
    · intro s acc; exact ⟨by simp [objWork], fun _ _ h => by simp [objLoop] at h⟩
  | succ f ih =>
    obtain ⟨iha, iho⟩ := ih
    constructor
    · intro s acc
      rw [arrWork, arrLoop]
      cases hs : skipBlanks s with
      | nil => simp only [Work.ops_tick, skipWork_nil hs]; exact ⟨by omega, fun _ _ h => by cases h⟩
      | cons c t =>
        have hk := skipWork_cons hs
        have hk1 := skipWork_pos hs
        simp only [Work.ops_seq, Work.ops_tick]
        by_cases h1 : c = 0x5D
        · simp only [if_pos h1]
          exact ⟨by omega, fun _ _ h => by cases h; omega⟩
        simp only [if_neg h1]
        by_cases h2 : c = 0x2C
        · simp only [if_pos h2]
          obtain ⟨h3, h4⟩ := iha t acc
          exact ⟨by omega, fun v r h => by have := h4 v r h; omega⟩
        simp only [if_neg h2]
        by_cases h3 : c = 0x7B
        · simp only [if_pos h3, Work.ops_seq, Work.ops_call]
          obtain ⟨h4, h5⟩ := iho t {}
          cases hr : objLoop E f t {} with
          | ok q =>
            obtain ⟨v, t'⟩ := q
            have h6 := h5 v t' hr
            obtain ⟨h7, h8⟩ := iha t' (acc ++ [v])
            simp only [R.bind_ok]
            simp only [OSt.pending] at h4 h6
            exact ⟨by omega, fun v' r h => by have := h8 v' r h; omega⟩
          | err e => simp only [OSt.pending] at h4; exact ⟨by simp only; omega, fun _ _ h => by cases h⟩
          | panic => simp only [OSt.pending] at h4; exact ⟨by simp only; omega, fun _ _ h => by cases h⟩
          | diverge => simp only [OSt.pending] at h4; exact ⟨by simp only; omega, fun _ _ h => by cases h⟩
        simp only [if_neg h3]
        by_cases h3 : c = 0x5B
        · simp only [if_pos h3, Work.ops_seq, Work.ops_call]
          obtain ⟨h4, h5⟩ := iha t []
          cases hr : arrLoop E f t [] with
          | ok q =>
            obtain ⟨v, t'⟩ := q
            have h6 := h5 v t' hr
            obtain ⟨h7, h8⟩ := iha t' (acc ++ [v])
            simp only [R.bind_ok]
            exact ⟨by omega, fun v' r h => by have := h8 v' r h; omega⟩
          | err e => exact ⟨by simp only; omega, fun _ _ h => by cases h⟩
          | panic => exact ⟨by simp only; omega, fun _ _ h => by cases h⟩
          | diverge => exact ⟨by simp only; omega, fun _ _ h => by cases h⟩
        simp only [if_neg h3, Work.ops_seq, Work.ops_tick]
        obtain ⟨h4, h5⟩ := scalarWork_bound E (f + 1) c t
        cases hr : parseScalar E (f + 1) c t with
        | ok q =>
          cases q with
          | none => exact ⟨by simp only; omega, fun _ _ h => by cases h⟩
          | some q =>
            obtain ⟨v, t'⟩ := q
            have h6 := h5 v t' hr
            obtain ⟨h7, h8⟩ := iha t' (acc ++ [v])
            simp only [R.bind_ok]
            exact ⟨by omega, fun v' r h => by have := h8 v' r h; omega⟩
        | err e => exact ⟨by simp only; omega, fun _ _ h => by cases h⟩
        | panic => exact ⟨by simp only; omega, fun _ _ h => by cases h⟩
        | diverge => exact ⟨by simp only; omega, fun _ _ h => by cases h⟩
    · intro s st
      have hmem : ∀ (k : Bytes) (v : V), (setMember st k v).pending = 0 := fun _ _ => rfl
      rw [objWork, objLoop]
      cases hs : skipBlanks s with
      | nil => simp only [Work.ops_tick, skipWork_nil hs]; exact ⟨by omega, fun _ _ h => by cases h⟩
      | cons c t =>
        have hk := skipWork_cons hs
        have hk1 := skipWork_pos hs
        have hstr := strWork_bound (f + 1) t []
        simp only [Work.ops_seq, Work.ops_tick]
        by_cases h1 : c = 0x7D
        · simp only [if_pos h1]
          refine ⟨by omega, fun _ _ h => ?_⟩
          cases hkey : st.key with
          | some k => rw [hkey] at h; cases h
          | none => rw [hkey] at h; cases h; omega
        simp only [if_neg h1]
        by_cases h2 : c = 0x2C
        · simp only [if_pos h2]
          cases hkey : st.key with
          | some k => exact ⟨by simp only; omega, fun _ _ h => by cases h⟩
          | none =>
            obtain ⟨h3, h4⟩ := iho t st
            exact ⟨by simp only; omega, fun v r h => by have := h4 v r h; simp only; omega⟩
        simp only [if_neg h2]
        by_cases h3 : c = 0x3A
        · simp only [if_pos h3]
          by_cases hcol : st.colon = true
          · simp only [if_pos hcol]
            exact ⟨by omega, fun _ _ h => by cases h⟩
          · simp only [if_neg hcol]
            cases hkey : st.key with
            | none => exact ⟨by simp only; omega, fun _ _ h => by cases h⟩
            | some k =>
              obtain ⟨h3, h4⟩ := iho t { st with colon := true }
              have hp : OSt.pending { st with colon := true } = st.pending := rfl
              rw [hkey] at hp h3 h4
              simp only
              exact ⟨by omega, fun v r h => by have := h4 v r h; omega⟩
        simp only [if_neg h3]
        by_cases h4 : c = 0x22
        · simp only [if_pos h4]
          cases hkey : st.key with
          | some k =>
            have hp : st.pending = k.length := by simp [OSt.pending, hkey]
            by_cases hcol : (!st.colon) = true
            · simp only [if_pos hcol]
              exact ⟨by omega, fun _ _ h => by cases h⟩
            · simp only [if_neg hcol, Work.ops_seq, Work.ops_tick]
              cases hr : strLoop (f + 1) t [] with
              | ok q =>
                obtain ⟨a, t'⟩ := q
                rw [hr] at hstr
                simp only at hstr
                simp only [R.bind_ok, Work.ops_seq, Work.ops_tick]
                obtain ⟨h5, h6⟩ := iho t' (setMember st k (.str a))
                rw [hmem] at h5 h6
                exact ⟨by omega, fun v r h => by have := h6 v r h; omega⟩
              | err e => rw [hr] at hstr; exact ⟨by simp only at hstr ⊢; omega, fun _ _ h => by cases h⟩
              | panic => rw [hr] at hstr; exact ⟨by simp only at hstr ⊢; omega, fun _ _ h => by cases h⟩
              | diverge => rw [hr] at hstr; exact ⟨by simp only at hstr ⊢; omega, fun _ _ h => by cases h⟩
          | none =>
            have hp : st.pending = 0 := by simp [OSt.pending, hkey]
            simp only [Work.ops_seq, Work.ops_tick]
            cases hr : strLoop (f + 1) t [] with
            | ok q =>
              obtain ⟨a, t'⟩ := q
              rw [hr] at hstr
              simp only [List.length_nil] at hstr
              simp only [R.bind_ok]
              obtain ⟨h5, h6⟩ := iho t' { st with key := some a }
              have hp2 : OSt.pending { st with key := some a } = a.length := rfl
              rw [hp2] at h5 h6
              exact ⟨by omega, fun v r h => by have := h6 v r h; omega⟩
            | err e => rw [hr] at hstr; exact ⟨by simp only at hstr ⊢; omega, fun _ _ h => by cases h⟩
            | panic => rw [hr] at hstr; exact ⟨by simp only at hstr ⊢; omega, fun _ _ h => by cases h⟩
            | diverge => rw [hr] at hstr; exact ⟨by simp only at hstr ⊢; omega, fun _ _ h => by cases h⟩
        simp only [if_neg h4]
        by_cases h5 : c = 0x7B ∨ c = 0x5B ∨ isNumStart c = true ∨ c = 0x74 ∨ c = 0x66 ∨ c = 0x6E
        case neg =>
          simp only [if_neg h5]
          exact ⟨by omega, fun _ _ h => by cases h⟩
        simp only [if_pos h5]
        cases hkey : st.key with
        | none => exact ⟨by simp only; omega, fun _ _ h => by cases h⟩
        | some k =>
          have hp : st.pending = k.length := by simp [OSt.pending, hkey]
          by_cases hcol : (!st.colon) = true
          · simp only [if_pos hcol]
            exact ⟨by omega, fun _ _ h => by cases h⟩
          simp only [if_neg hcol]
          by_cases h6 : c = 0x7B
          · simp only [if_pos h6, Work.ops_seq, Work.ops_call]
            obtain ⟨h7, h8⟩ := iho t {}
            simp only [OSt.pending] at h7 h8
            cases hr : objLoop E f t {} with
            | ok q =>
              obtain ⟨v, t'⟩ := q
              have h9 := h8 v t' hr
              obtain ⟨h10, h11⟩ := iho t' (setMember st k v)
              rw [hmem] at h10 h11
              simp only [R.bind_ok, Work.ops_seq, Work.ops_tick]
              exact ⟨by omega, fun v' r h => by have := h11 v' r h; omega⟩
            | err e => exact ⟨by simp only; omega, fun _ _ h => by cases h⟩
            | panic => exact ⟨by simp only; omega, fun _ _ h => by cases h⟩
            | diverge => exact ⟨by simp only; omega, fun _ _ h => by cases h⟩
          simp only [if_neg h6]
          by_cases h6 : c = 0x5B
          · simp only [if_pos h6, Work.ops_seq, Work.ops_call]
            obtain ⟨h7, h8⟩ := iha t []
            cases hr : arrLoop E f t [] with
            | ok q =>
              obtain ⟨v, t'⟩ := q
              have h9 := h8 v t' hr
              obtain ⟨h10, h11⟩ := iho t' (setMember st k v)
              rw [hmem] at h10 h11
              simp only [R.bind_ok, Work.ops_seq, Work.ops_tick]
              exact ⟨by omega, fun v' r h => by have := h11 v' r h; omega⟩
            | err e => exact ⟨by simp only; omega, fun _ _ h => by cases h⟩
            | panic => exact ⟨by simp only; omega, fun _ _ h => by cases h⟩
            | diverge => exact ⟨by simp only; omega, fun _ _ h => by cases h⟩
          simp only [if_neg h6, Work.ops_seq, Work.ops_tick]
          obtain ⟨h7, h8⟩ := scalarWork_bound E (f + 1) c t
          cases hr : parseScalar E (f + 1) c t with
          | ok q =>
            cases q with
            | none => exact ⟨by simp only; omega, fun _ _ h => by cases h⟩
            | some q =>
              obtain ⟨v, t'⟩ := q
              have h9 := h8 v t' hr
              obtain ⟨h10, h11⟩ := iho t' (setMember st k v)
              rw [hmem] at h10 h11
              simp only [R.bind_ok, Work.ops_seq, Work.ops_tick]
              exact ⟨by omega, fun v' r h => by have := h11 v' r h; omega⟩
          | err e => exact ⟨by simp only; omega, fun _ _ h => by cases h⟩
          | panic => exact ⟨by simp only; omega, fun _ _ h => by cases h⟩
          | diverge => exact ⟨by simp only; omega, fun _ _ h => by cases h⟩

theorem iterWork_ops (E : Env) (s : Bytes) : (iterWork E s).ops ≤ 7 * s.length + 40 := by
  unfold iterWork
  cases hs : skipBlanks s with
  | nil => simp only [Work.ops_tick, skipWork_nil hs]; omega
  | cons c t =>
    have hk := skipWork_cons hs
    have hk1 := skipWork_pos hs
    have hlen : t.length < s.length + 1 := by omega
    simp only [Work.ops_seq, Work.ops_tick]
    obtain ⟨iha, iho⟩ := loopWork_bound E (s.length + 1)
    have key : (valueWork E (s.length + 1) c t).ops ≤ 7 * t.length + 40 ∧
        ∀ v r, parseValue E (s.length + 1) c t = .ok (v, r) → (valueWork E (s.length + 1) c t).ops + 7 * r.length ≤ 7 * t.length + 5 := by
      unfold valueWork parseValue
      split
      · obtain ⟨h1, h2⟩ := iho t {}
        simp only [OSt.pending] at h1 h2
        simp only [Work.ops_call]
        exact ⟨by omega, fun v r h => by have := h2 v r h; omega⟩
      · split
        · obtain ⟨h1, h2⟩ := iha t []
          simp only [Work.ops_call]
          exact ⟨by omega, fun v r h => by have := h2 v r h; omega⟩
        · obtain ⟨h1, h2⟩ := scalarWork_bound E (s.length + 1) c t
          simp only [Work.ops_tick]
          refine ⟨by omega, fun v r h => ?_⟩
          obtain ⟨o, h3, h⟩ := bind_inv h
          cases o with
          | none => cases h
          | some q =>
            cases h
            exact h2 _ _ h3
    cases hv : parseValue E (s.length + 1) c t with
    | ok q =>
      obtain ⟨v, r⟩ := q
      have := key.2 v r hv
      have := skipWork_le r
      simp only [Work.ops_tick]
      omega
    | _ => simp only; have := key.1; omega

/-! ### nested calls -/

theorem openings_suffix {r s : Bytes} (h : r <:+ s) : openings r ≤ openings s := h.sublist.countP_le

theorem skipBlanks_suf (s : Bytes) : skipBlanks s <:+ s := by
  induction s with
  | nil => exact List.suffix_refl _
  | cons c s ih =>
    simp only [skipBlanks]
    split
    · exact ih.trans (List.suffix_cons _ _)
    · exact List.suffix_refl _

theorem escUnicode_suffix {t bs t' : Bytes} (h : escUnicode t = .ok (bs, t')) : t' <:+ t := by
  unfold escUnicode at h
  split at h
  · rename_i a b c d x t
    obtain ⟨r, -, h⟩ := bind_inv h
    split at h
    · cases h
      exact ⟨[a, b, c, d], rfl⟩
    · split at h
      · rename_i q a' b' c' d' y u w
        split at h
        · cases h
        · split at h
          · cases h
          · obtain ⟨ex, -, h⟩ := bind_inv h
            obtain ⟨r', -, h⟩ := bind_inv h
            cases h
            exact ⟨[a, b, c, d, x, q, a', b', c', d'], rfl⟩
      · cases h
  · cases h

theorem shiftA_suffix {s a b : Bytes} {n : Nat} (h : shiftA s n = .ok (a, b)) : b <:+ s := by
  unfold shiftA at h
  split at h
  · cases h
  · cases h
    exact List.drop_suffix _ _

theorem strStep_suffix {c : UInt8} {t bs t' : Bytes} (h : strStep c t = .ok (some (bs, t'))) : t' <:+ c :: t := by
  unfold strStep at h
  repeat' split at h
  all_goals first
    | (cases h; done)
    | (cases h; exact List.suffix_cons _ _)
    | (cases h; exact (List.suffix_cons _ _).trans (List.suffix_cons _ _))
    | (obtain ⟨⟨_, _⟩, h1, h⟩ := bind_inv h; cases h; exact (escUnicode_suffix h1).trans ((List.suffix_cons _ _).trans (List.suffix_cons _ _)))
    | (obtain ⟨⟨_, _⟩, h1, h⟩ := bind_inv h; cases h; exact shiftA_suffix h1)

theorem strLoop_suffix : ∀ (f : Nat) (s acc a r : Bytes), strLoop f s acc = .ok (a, r) → r <:+ s := by
  intro f
  induction f with
  | zero => intro s acc a r h; simp [strLoop] at h
  | succ f ih =>
    intro s acc a r h
    cases s with
    | nil => simp [strLoop] at h
    | cons c t =>
      rw [strLoop] at h
      obtain ⟨o, h1, h⟩ := bind_inv h
      cases o with
      | none => cases h; exact List.suffix_cons _ _
      | some q =>
        obtain ⟨bs, t'⟩ := q
        exact (ih _ _ _ _ h).trans (strStep_suffix h1)

theorem parseScalar_suffix {E : Env} {f : Nat} {c : UInt8} {t r : Bytes} {v : V} (h : parseScalar E f c t = .ok (some (v, r))) : r <:+ c :: t := by
  unfold parseScalar at h
  split at h
  · obtain ⟨⟨n, text, r'⟩, h3, h⟩ := bind_inv h
    cases h
    obtain ⟨st, h4⟩ := parseNumber_inv h3
    have h5 := (numLoop_length h4).2
    exact ⟨text, by simpa using h5.symm⟩
  · have key : ∀ (lit : Bytes) (e1 e2 : Err) (w : V),
        (do let rest ← parseLit (c :: t) lit e1 e2; pure (some (w, rest)) : R (Option (V × Bytes))) = .ok (some (v, r)) → r <:+ c :: t := by
      intro lit e1 e2 w h
      obtain ⟨r', h4, h⟩ := bind_inv h
      cases h
      unfold parseLit at h4
      split at h4
      · cases h4
      · split at h4
        · cases h4; exact List.drop_suffix _ _
        · cases h4
    split at h
    · obtain ⟨⟨a, r'⟩, h3, h⟩ := bind_inv h
      cases h
      exact (strLoop_suffix _ _ _ _ _ h3).trans (List.suffix_cons _ _)
    · split at h
      · exact key _ _ _ _ h
      · split at h
        · exact key _ _ _ _ h
        · split at h
          · exact key _ _ _ _ h
          · cases h

theorem parseScalar_nesting {E : Env} {f : Nat} {c : UInt8} {t r : Bytes} {v : V} (h : parseScalar E f c t = .ok (some (v, r))) : nesting v = 0 := by
  unfold parseScalar at h
  repeat' split at h
  all_goals first
    | (cases h; done)
    | (obtain ⟨_, _, h⟩ := bind_inv h; cases h; simp [nesting])

theorem nestingL_append (xs ys : List V) : nestingL (xs ++ ys) = max (nestingL xs) (nestingL ys) := by
  induction xs with
  | nil => simp [nestingL]
  | cons x xs ih => simp only [List.cons_append, nestingL, ih]; omega

theorem nestingM_assign (e : Ent) (es : List Ent) : nestingM (assign e es) ≤ max (nesting e.v) (nestingM es) := by
  induction es with
  | nil => cases e; simp [assign, nestingM]
  | cons x es ih =>
    rw [assign]
    cases e; cases x
    split
    · simp only [nestingM, Ent.v]; omega
    · simp only [nestingM, Ent.v] at ih ⊢; omega

theorem openings_cons (c : UInt8) (t : Bytes) : openings (c :: t) = openings t + if c = 0x5B ∨ c = 0x7B then 1 else 0 := by
  unfold openings
  rw [List.countP_cons]
  congr 1
  simp

theorem loops_depth (E : Env) : ∀ f : Nat,
    (∀ s acc, (arrWork E f s acc).depth ≤ openings s ∧
      ∀ v r, arrLoop E f s acc = .ok (v, r) → r <:+ s ∧ nesting v ≤ max (nestingL acc) (arrWork E f s acc).depth + 1) ∧
    (∀ s st, (objWork E f s st).depth ≤ openings s ∧
      ∀ v r, objLoop E f s st = .ok (v, r) → r <:+ s ∧ nesting v ≤ max (nestingM st.kvs) (objWork E f s st).depth + 1) := by
  intro f
  induction f with
  | zero =>
    constructor
    · intro s acc; exact ⟨by simp [arrWork], fun _ _ h => by simp [arrLoop] at h⟩
    · intro s acc; exact ⟨by simp [objWork], fun _ _ h => by simp [objLoop] at h⟩
  | succ f ih =>
    obtain ⟨iha, iho⟩ := ih
    constructor
    · intro s acc
      rw [arrWork, arrLoop]
      cases hs : skipBlanks s with
      | nil => exact ⟨by simp, fun _ _ h => by cases h⟩
      | cons c t =>
        have hk : c :: t <:+ s := hs ▸ skipBlanks_suf s
        have hk0 := openings_suffix hk
        have hk2 : t <:+ s := (List.suffix_cons c t).trans hk
        have hk1 := openings_cons c t
        simp only [Work.depth_seq, Work.depth_tick]
        by_cases h1 : c = 0x5D
        · simp only [if_pos h1]
          refine ⟨by omega, fun _ _ h => ?_⟩
          cases h
          refine ⟨hk2, ?_⟩
          rw [nesting]; omega
        simp only [if_neg h1]
        by_cases h2 : c = 0x2C
        · simp only [if_pos h2]
          obtain ⟨h3, h4⟩ := iha t acc
          refine ⟨by omega, fun v r h => ?_⟩
          obtain ⟨h5, h6⟩ := h4 v r h
          exact ⟨h5.trans hk2, by omega⟩
        simp only [if_neg h2]
        by_cases h3 : c = 0x7B
        · simp only [if_pos h3, Work.depth_seq, Work.depth_call]
          rw [if_pos (.inr h3)] at hk1
          obtain ⟨h4, h5⟩ := iho t {}
          cases hr : objLoop E f t {} with
          | ok q =>
            obtain ⟨v, t'⟩ := q
            obtain ⟨h6, h6'⟩ := h5 v t' hr
            obtain ⟨h7, h8⟩ := iha t' (acc ++ [v])
            have := openings_suffix h6
            simp only [R.bind_ok]
            refine ⟨by omega, fun v' r h => ?_⟩
            obtain ⟨h9, h10⟩ := h8 v' r h
            refine ⟨(h9.trans h6).trans hk2, ?_⟩
            simp only [nestingL_append, nestingL, nestingM] at h10 h6'
            omega
          | err e => exact ⟨by simp only; omega, fun _ _ h => by cases h⟩
          | panic => exact ⟨by simp only; omega, fun _ _ h => by cases h⟩
          | diverge => exact ⟨by simp only; omega, fun _ _ h => by cases h⟩
        simp only [if_neg h3]
        by_cases h3 : c = 0x5B
        · simp only [if_pos h3, Work.depth_seq, Work.depth_call]
          rw [if_pos (.inl h3)] at hk1
          obtain ⟨h4, h5⟩ := iha t []
          cases hr : arrLoop E f t [] with
          | ok q =>
            obtain ⟨v, t'⟩ := q
            obtain ⟨h6, h6'⟩ := h5 v t' hr
            obtain ⟨h7, h8⟩ := iha t' (acc ++ [v])
            have := openings_suffix h6
            simp only [R.bind_ok]
            refine ⟨by omega, fun v' r h => ?_⟩
            obtain ⟨h9, h10⟩ := h8 v' r h
            refine ⟨(h9.trans h6).trans hk2, ?_⟩
            simp only [nestingL_append, nestingL] at h10 h6'
            omega
          | err e => exact ⟨by simp only; omega, fun _ _ h => by cases h⟩
          | panic => exact ⟨by simp only; omega, fun _ _ h => by cases h⟩
          | diverge => exact ⟨by simp only; omega, fun _ _ h => by cases h⟩
        simp only [if_neg h3, Work.depth_seq, Work.depth_tick]
        cases hr : parseScalar E (f + 1) c t with
        | ok q =>
          cases q with
          | none => exact ⟨by simp, fun _ _ h => by cases h⟩
          | some q =>
            obtain ⟨v, t'⟩ := q
            have h6 := (parseScalar_suffix hr).trans hk
            have h0 := parseScalar_nesting hr
            have := openings_suffix h6
            obtain ⟨h7, h8⟩ := iha t' (acc ++ [v])
            simp only [R.bind_ok]
            refine ⟨by omega, fun v' r h => ?_⟩
            obtain ⟨h9, h10⟩ := h8 v' r h
            refine ⟨h9.trans h6, ?_⟩
            simp only [nestingL_append, nestingL] at h10
            omega
        | err e => exact ⟨by simp, fun _ _ h => by cases h⟩
        | panic => exact ⟨by simp, fun _ _ h => by cases h⟩
        | diverge => exact ⟨by simp, fun _ _ h => by cases h⟩
    · intro s st
      have hmem : ∀ (k : Bytes) (v : V), nestingM (setMember st k v).kvs ≤ max (nesting v) (nestingM st.kvs) := fun k v => nestingM_assign _ _
      rw [objWork, objLoop]
      cases hs : skipBlanks s with
      | nil => exact ⟨by simp, fun _ _ h => by cases h⟩
      | cons c t =>
        have hk : c :: t <:+ s := hs ▸ skipBlanks_suf s
        have hk0 := openings_suffix hk
        have hk2 : t <:+ s := (List.suffix_cons c t).trans hk
        have hk1 := openings_cons c t
        simp only [Work.depth_seq, Work.depth_tick]
        by_cases h1 : c = 0x7D
        · simp only [if_pos h1]
          refine ⟨by omega, fun _ _ h => ?_⟩
          cases hkey : st.key with
          | some k => rw [hkey] at h; cases h
          | none => rw [hkey] at h; cases h; exact ⟨hk2, by rw [nesting]; omega⟩
        simp only [if_neg h1]
        by_cases h2 : c = 0x2C
        · simp only [if_pos h2]
          cases hkey : st.key with
          | some k => exact ⟨by simp, fun _ _ h => by cases h⟩
          | none =>
            obtain ⟨h3, h4⟩ := iho t st
            refine ⟨by simp only; omega, fun v r h => ?_⟩
            obtain ⟨h5, h6⟩ := h4 v r h
            exact ⟨h5.trans hk2, by simp only; omega⟩
        simp only [if_neg h2]
        by_cases h3 : c = 0x3A
        · simp only [if_pos h3]
          by_cases hcol : st.colon = true
          · simp only [if_pos hcol]
            exact ⟨by omega, fun _ _ h => by cases h⟩
          · simp only [if_neg hcol]
            cases hkey : st.key with
            | none => exact ⟨by simp, fun _ _ h => by cases h⟩
            | some k =>
              obtain ⟨h3, h4⟩ := iho t { st with colon := true }
              rw [hkey] at h3 h4
              refine ⟨by simp only; omega, fun v r h => ?_⟩
              obtain ⟨h5, h6⟩ := h4 v r h
              exact ⟨h5.trans hk2, by simp only at h6 ⊢; omega⟩
        simp only [if_neg h3]
        by_cases h4 : c = 0x22
        · simp only [if_pos h4]
          cases hkey : st.key with
          | some k =>
            by_cases hcol : (!st.colon) = true
            · simp only [if_pos hcol]
              exact ⟨by omega, fun _ _ h => by cases h⟩
            · simp only [if_neg hcol, Work.depth_seq, Work.depth_tick]
              cases hr : strLoop (f + 1) t [] with
              | ok q =>
                obtain ⟨a, t'⟩ := q
                have h6 := (strLoop_suffix _ _ _ _ _ hr).trans hk2
                have := openings_suffix h6
                simp only [R.bind_ok, Work.depth_seq, Work.depth_tick]
                obtain ⟨h7, h8⟩ := iho t' (setMember st k (.str a))
                refine ⟨by omega, fun v r h => ?_⟩
                obtain ⟨h9, h10⟩ := h8 v r h
                have hm := hmem k (.str a)
                refine ⟨h9.trans h6, ?_⟩
                have h0 : nesting (.str a) = 0 := by simp [nesting]
                omega
              | err e => exact ⟨by simp, fun _ _ h => by cases h⟩
              | panic => exact ⟨by simp, fun _ _ h => by cases h⟩
              | diverge => exact ⟨by simp, fun _ _ h => by cases h⟩
          | none =>
            simp only [Work.depth_seq, Work.depth_tick]
            cases hr : strLoop (f + 1) t [] with
            | ok q =>
              obtain ⟨a, t'⟩ := q
              have h6 := (strLoop_suffix _ _ _ _ _ hr).trans hk2
              have := openings_suffix h6
              simp only [R.bind_ok]
              obtain ⟨h7, h8⟩ := iho t' { st with key := some a }
              refine ⟨by omega, fun v r h => ?_⟩
              obtain ⟨h9, h10⟩ := h8 v r h
              exact ⟨h9.trans h6, by simp only at h10; omega⟩
            | err e => exact ⟨by simp, fun _ _ h => by cases h⟩
            | panic => exact ⟨by simp, fun _ _ h => by cases h⟩
            | diverge => exact ⟨by simp, fun _ _ h => by cases h⟩
        simp only [if_neg h4]
        by_cases h5 : c = 0x7B ∨ c = 0x5B ∨ isNumStart c = true ∨ c = 0x74 ∨ c = 0x66 ∨ c = 0x6E
        case neg =>
          simp only [if_neg h5]
          exact ⟨by omega, fun _ _ h => by cases h⟩
        simp only [if_pos h5]
        cases hkey : st.key with
        | none => exact ⟨by simp, fun _ _ h => by cases h⟩
        | some k =>
          by_cases hcol : (!st.colon) = true
          · simp only [if_pos hcol]
            exact ⟨by omega, fun _ _ h => by cases h⟩
          simp only [if_neg hcol]
          by_cases h6 : c = 0x7B
          · simp only [if_pos h6, Work.depth_seq, Work.depth_call]
            rw [if_pos (.inr h6)] at hk1
            obtain ⟨h7, h8⟩ := iho t {}
            cases hr : objLoop E f t {} with
            | ok q =>
              obtain ⟨v, t'⟩ := q
              obtain ⟨h9, h9'⟩ := h8 v t' hr
              have := openings_suffix h9
              obtain ⟨h10, h11⟩ := iho t' (setMember st k v)
              have hm := hmem k v
              simp only [R.bind_ok, Work.depth_seq, Work.depth_tick]
              refine ⟨by omega, fun v' r h => ?_⟩
              obtain ⟨h12, h13⟩ := h11 v' r h
              refine ⟨(h12.trans h9).trans hk2, ?_⟩
              simp only [nestingM] at h9'
              omega
            | err e => exact ⟨by simp only; omega, fun _ _ h => by cases h⟩
            | panic => exact ⟨by simp only; omega, fun _ _ h => by cases h⟩
            | diverge => exact ⟨by simp only; omega, fun _ _ h => by cases h⟩
          simp only [if_neg h6]
          by_cases h6 : c = 0x5B
          · simp only [if_pos h6, Work.depth_seq, Work.depth_call]
            rw [if_pos (.inl h6)] at hk1
            obtain ⟨h7, h8⟩ := iha t []
            cases hr : arrLoop E f t [] with
            | ok q =>
              obtain ⟨v, t'⟩ := q
              obtain ⟨h9, h9'⟩ := h8 v t' hr
              have := openings_suffix h9
              obtain ⟨h10, h11⟩ := iho t' (setMember st k v)
              have hm := hmem k v
              simp only [R.bind_ok, Work.depth_seq, Work.depth_tick]
              refine ⟨by omega, fun v' r h => ?_⟩
              obtain ⟨h12, h13⟩ := h11 v' r h
              refine ⟨(h12.trans h9).trans hk2, ?_⟩
              simp only [nestingL] at h9'
              omega
            | err e => exact ⟨by simp only; omega, fun _ _ h => by cases h⟩
            | panic => exact ⟨by simp only; omega, fun _ _ h => by cases h⟩
            | diverge => exact ⟨by simp only; omega, fun _ _ h => by cases h⟩
          simp only [if_neg h6, Work.depth_seq, Work.depth_tick]
          cases hr : parseScalar E (f + 1) c t with
          | ok q =>
            cases q with
            | none => exact ⟨by simp, fun _ _ h => by cases h⟩
            | some q =>
              obtain ⟨v, t'⟩ := q
              have h9 := (parseScalar_suffix hr).trans hk
              have h0 := parseScalar_nesting hr
              have := openings_suffix h9
              obtain ⟨h10, h11⟩ := iho t' (setMember st k v)
              have hm := hmem k v
              simp only [R.bind_ok, Work.depth_seq, Work.depth_tick]
              refine ⟨by omega, fun v' r h => ?_⟩
              obtain ⟨h12, h13⟩ := h11 v' r h
              exact ⟨h12.trans h9, by omega⟩
          | err e => exact ⟨by simp, fun _ _ h => by cases h⟩
          | panic => exact ⟨by simp, fun _ _ h => by cases h⟩
          | diverge => exact ⟨by simp, fun _ _ h => by cases h⟩

theorem iterWork_depth (E : Env) (s : Bytes) : (iterWork E s).depth ≤ openings s ∧ ∀ v, unmarshalWithIter E s = .ok v → nesting v ≤ (iterWork E s).depth := by
  unfold iterWork unmarshalWithIter
  cases hs : skipBlanks s with
  | nil => exact ⟨by simp, fun _ h => by cases h⟩
  | cons c t =>
    have hk : c :: t <:+ s := hs ▸ skipBlanks_suf s
    have hk0 := openings_suffix hk
    have hk1 := openings_cons c t
    obtain ⟨iha, iho⟩ := loops_depth E (s.length + 1)
    have key : (valueWork E (s.length + 1) c t).depth ≤ openings s ∧ ∀ v r, parseValue E (s.length + 1) c t = .ok (v, r) → nesting v ≤ (valueWork E (s.length + 1) c t).depth := by
      unfold valueWork parseValue
      split
      · rename_i hc
        rw [if_pos (.inr hc)] at hk1
        obtain ⟨h1, h2⟩ := iho t {}
        simp only [Work.depth_call]
        refine ⟨by omega, fun v r h => ?_⟩
        have := (h2 v r h).2
        simp only [nestingM] at this
        omega
      · split
        · rename_i hc
          rw [if_pos (.inl hc)] at hk1
          obtain ⟨h1, h2⟩ := iha t []
          simp only [Work.depth_call]
          refine ⟨by omega, fun v r h => ?_⟩
          have := (h2 v r h).2
          simp only [nestingL] at this
          omega
        · simp only [Work.depth_tick]
          refine ⟨by omega, fun v r h => ?_⟩
          obtain ⟨o, h3, h⟩ := bind_inv h
          cases o with
          | none => cases h
          | some q =>
            cases h
            exact Nat.le_of_eq (parseScalar_nesting h3)
    simp only [Work.depth_seq, Work.depth_tick]
    constructor
    · split
      · simp only [Work.depth_tick]; omega
      · simp only; omega
    · intro v h
      obtain ⟨⟨v', r⟩, h1, h⟩ := bind_inv h
      have := key.2 v' r h1
      rw [h1]
      simp only at h
      split at h
      · cases h; omega
      · cases h

/-! ### every byte is looked at -/

theorem uniWork_ge {t bs t' : Bytes} (h : escUnicode t = .ok (bs, t')) : t.length ≤ uniWork t + t'.length := by
  unfold escUnicode at h
  unfold uniWork
  split at h
  · rename_i a b c d x t
    obtain ⟨r, hr, h⟩ := bind_inv h
    simp only [hr]
    split at h
    · rename_i hc
      rw [if_pos hc]
      cases h
      simp only [List.length_cons]; omega
    · rename_i hc
      rw [if_neg hc]
      split at h
      · rename_i q a' b' c' d' y u
        split at h
        · cases h
        · rename_i h1
          split at h
          · cases h
          · rename_i h2
            obtain ⟨ex, hex, h⟩ := bind_inv h
            obtain ⟨r', hp, h⟩ := bind_inv h
            cases h
            simp only [if_neg h1, if_neg h2, List.length_cons]
            omega
      · cases h
  · cases h

theorem strStep_ge {c : UInt8} {t bs t' : Bytes} (h : strStep c t = .ok (some (bs, t'))) : t.length + 1 ≤ strStepWork c t + t'.length := by
  unfold strStep at h
  unfold strStepWork
  split at h
  · rename_i hc
    rw [if_pos hc]
    cases t with
    | nil => cases h
    | cons e t =>
      simp only at h ⊢
      cases he : simpleEsc e with
      | some b =>
        rw [he] at h
        cases h
        simp only [List.length_cons]; omega
      | none =>
        rw [he] at h
        simp only at h ⊢
        split at h
        · rename_i hu
          rw [if_pos hu]
          obtain ⟨⟨x, y⟩, h1, h2⟩ := bind_inv h
          cases h2
          have := uniWork_ge h1
          simp only [List.length_cons]
          omega
        · cases h
  · rename_i hc
    rw [if_neg hc]
    have key : ∀ n : Nat, (do let (a, b) ← shiftA (c :: t) n; pure (some (a, b)) : R (Option (Bytes × Bytes))) = .ok (some (bs, t')) →
        t.length + 1 ≤ 1 + shiftWork (c :: t) n + t'.length := by
      intro n h
      obtain ⟨⟨x, y⟩, h1, h2⟩ := bind_inv h
      cases h2
      have := shiftA_len h1
      simp only [List.length_cons] at this
      unfold shiftWork
      rw [if_neg (by simp only [List.length_cons]; omega)]
      omega
    split at h
    · cases h
    · rename_i h1
      rw [if_neg h1]
      split at h
      · rename_i h2
        cases h
        rw [if_pos h2]
        omega
      · rename_i h2
        rw [if_neg h2]
        split at h
        · rename_i h3
          rw [if_pos h3]; exact key _ h
        · rename_i h3
          rw [if_neg h3]
          split at h
          · rename_i h4
            rw [if_pos h4]; exact key _ h
          · rename_i h4
            rw [if_neg h4]
            split at h
            · rename_i h5
              rw [if_pos h5]; exact key _ h
            · cases h

theorem strWork_ge : ∀ (f : Nat) (s acc a r : Bytes), strLoop f s acc = .ok (a, r) → s.length ≤ strWork f s + r.length := by
  intro f
  induction f with
  | zero => intro s acc a r h; simp [strLoop] at h
  | succ f ih =>
    intro s acc a r h
    cases s with
    | nil => simp [strLoop] at h
    | cons c t =>
      rw [strLoop] at h
      rw [strWork]
      obtain ⟨o, h1, h⟩ := bind_inv h
      cases o with
      | none =>
        have h5 : 1 ≤ strStepWork c t := by unfold strStepWork; omega
        cases h
        simp only [List.length_cons]; omega
      | some q =>
        obtain ⟨bs, t'⟩ := q
        have h2 := strStep_ge h1
        have h3 := ih _ _ _ _ h
        simp only [h1, List.length_cons]
        omega

theorem numLoopWork_ge : ∀ (s acc : Bytes) (st : NumSt) (st' : NumSt) (text r : Bytes), numLoop acc st s = .ok (st', text, r) → s.length ≤ numLoopWork acc st s + r.length := by
  intro s
  induction s with
  | nil => intro acc st st' text r h; simp
  | cons b t ih =>
    intro acc st st' text r h
    rw [numLoop] at h
    rw [numLoopWork]
    obtain ⟨o, h1, h⟩ := bind_inv h
    cases o with
    | none => cases h; simp only [List.length_cons]; omega
    | some st2 =>
      have := ih _ _ _ _ _ h
      simp only [h1, List.length_cons]
      omega

theorem scalarWork_ge {E : Env} {f : Nat} {c : UInt8} {t r : Bytes} {v : V} (h : parseScalar E f c t = .ok (some (v, r))) : t.length ≤ scalarWork f c t + r.length := by
  unfold parseScalar at h
  unfold scalarWork
  split at h
  · rename_i hc
    rw [if_pos hc]
    obtain ⟨⟨n, text, r'⟩, h3, h⟩ := bind_inv h
    cases h
    obtain ⟨st, h4⟩ := parseNumber_inv h3
    have := numLoopWork_ge _ _ _ _ _ _ h4
    unfold numWork
    simp only [List.length_cons] at this
    omega
  · rename_i hc
    rw [if_neg hc]
    split at h
    · rename_i h1
      rw [if_pos h1]
      obtain ⟨⟨a, r'⟩, h3, h⟩ := bind_inv h
      cases h
      exact strWork_ge _ _ _ _ _ h3
    · rename_i h1
      rw [if_neg h1]
      have key : ∀ (lit : Bytes) (e1 e2 : Err) (w : V), 
          (do let rest ← parseLit (c :: t) lit e1 e2; pure (some (w, rest)) : R (Option (V × Bytes))) = .ok (some (v, r)) → t.length ≤ litWork (c :: t) lit + r.length := by
        intro lit e1 e2 w h
        obtain ⟨r', h4, h⟩ := bind_inv h
        cases h
        have := parseLit_len h4
        simp only [List.length_cons] at this
        unfold litWork
        rw [if_neg (by simp only [List.length_cons]; omega)]
        omega
      split at h
      · rename_i h2; rw [if_pos h2]; exact key _ _ _ _ h
      · rename_i h2; rw [if_neg h2]
        split at h
        · rename_i h3; rw [if_pos h3]; exact key _ _ _ _ h
        · rename_i h3; rw [if_neg h3]
          split at h
          · rename_i h4; rw [if_pos h4]; exact key _ _ _ _ h
          · cases h

theorem loopWork_ge (E : Env) : ∀ f : Nat,
    (∀ s acc v r, arrLoop E f s acc = .ok (v, r) → s.length ≤ (arrWork E f s acc).ops + r.length) ∧
    (∀ s st v r, objLoop E f s st = .ok (v, r) → s.length ≤ (objWork E f s st).ops + r.length) := by
  intro f
  induction f with
  | zero =>
    constructor
    · intro s acc v r h; simp [arrLoop] at h
    · intro s acc v r h; simp [objLoop] at h
  | succ f ih =>
    obtain ⟨iha, iho⟩ := ih
    constructor
    · intro s acc v r h
      rw [arrLoop] at h
      rw [arrWork]
      cases hs : skipBlanks s with
      | nil => rw [hs] at h; cases h
      | cons c t =>
        rw [hs] at h
        have hk := skipWork_cons hs
        simp only [Work.ops_seq, Work.ops_tick] at h ⊢
        by_cases h1 : c = 0x5D
        · simp only [if_pos h1] at h ⊢
          cases h; omega
        simp only [if_neg h1] at h ⊢
        by_cases h2 : c = 0x2C
        · simp only [if_pos h2] at h ⊢
          have := iha _ _ _ _ h
          omega
        simp only [if_neg h2] at h ⊢
        by_cases h3 : c = 0x7B
        · simp only [if_pos h3, Work.ops_seq, Work.ops_call] at h ⊢
          obtain ⟨⟨v', t'⟩, h4, h⟩ := bind_inv h
          dsimp only at h
          have := iho _ _ _ _ h4
          have := iha _ _ _ _ h
          simp only [h4]
          omega
        simp only [if_neg h3] at h ⊢
        by_cases h3 : c = 0x5B
        · simp only [if_pos h3, Work.ops_seq, Work.ops_call] at h ⊢
          obtain ⟨⟨v', t'⟩, h4, h⟩ := bind_inv h
          dsimp only at h
          have := iha _ _ _ _ h4
          have := iha _ _ _ _ h
          simp only [h4]
          omega
        simp only [if_neg h3, Work.ops_seq, Work.ops_tick] at h ⊢
        obtain ⟨o, h4, h⟩ := bind_inv h
        cases o with
        | none => cases h
        | some q =>
          obtain ⟨v', t'⟩ := q
          have := scalarWork_ge h4
          have := iha _ _ _ _ h
          simp only [h4]
          omega
    · intro s st v r h
      rw [objLoop] at h
      rw [objWork]
      cases hs : skipBlanks s with
      | nil => rw [hs] at h; cases h
      | cons c t =>
        rw [hs] at h
        have hk := skipWork_cons hs
        simp only [Work.ops_seq, Work.ops_tick] at h ⊢
        by_cases h1 : c = 0x7D
        · simp only [if_pos h1] at h ⊢
          cases hkey : st.key with
          | some k => rw [hkey] at h; cases h
          | none => rw [hkey] at h; cases h; omega
        simp only [if_neg h1] at h ⊢
        by_cases h2 : c = 0x2C
        · simp only [if_pos h2] at h ⊢
          cases hkey : st.key with
          | some k => rw [hkey] at h; cases h
          | none =>
            rw [hkey] at h
            have := iho _ _ _ _ h
            simp only
            omega
        simp only [if_neg h2] at h ⊢
        by_cases h3 : c = 0x3A
        · simp only [if_pos h3] at h ⊢
          by_cases hcol : st.colon = true
          · simp only [if_pos hcol] at h; cases h
          · simp only [if_neg hcol] at h ⊢
            cases hkey : st.key with
            | none => rw [hkey] at h; cases h
            | some k =>
              rw [hkey] at h
              have := iho _ _ _ _ h
              simp only
              omega
        simp only [if_neg h3] at h ⊢
        by_cases h4 : c = 0x22
        · simp only [if_pos h4] at h ⊢
          cases hkey : st.key with
          | some k =>
            rw [hkey] at h
            by_cases hcol : (!st.colon) = true
            · simp only [if_pos hcol] at h; cases h
            · simp only [if_neg hcol, Work.ops_seq, Work.ops_tick] at h ⊢
              obtain ⟨⟨a, t'⟩, h5, h⟩ := bind_inv h
              dsimp only at h
              have := strWork_ge _ _ _ _ _ h5
              have := iho _ _ _ _ h
              simp only [h5, Work.ops_seq, Work.ops_tick]
              omega
          | none =>
            rw [hkey] at h
            simp only [Work.ops_seq, Work.ops_tick] at h ⊢
            obtain ⟨⟨a, t'⟩, h5, h⟩ := bind_inv h
            dsimp only at h
            have := strWork_ge _ _ _ _ _ h5
            have := iho _ _ _ _ h
            simp only [h5]
            omega
        simp only [if_neg h4] at h ⊢
        by_cases h5 : c = 0x7B ∨ c = 0x5B ∨ isNumStart c = true ∨ c = 0x74 ∨ c = 0x66 ∨ c = 0x6E
        case neg => simp only [if_neg h5] at h; cases h
        simp only [if_pos h5] at h ⊢
        cases hkey : st.key with
        | none => rw [hkey] at h; cases h
        | some k =>
          rw [hkey] at h
          by_cases hcol : (!st.colon) = true
          · simp only [if_pos hcol] at h; cases h
          simp only [if_neg hcol] at h ⊢
          by_cases h6 : c = 0x7B
          · simp only [if_pos h6, Work.ops_seq, Work.ops_call] at h ⊢
            obtain ⟨⟨v', t'⟩, h7, h⟩ := bind_inv h
            dsimp only at h
            have := iho _ _ _ _ h7
            have := iho _ _ _ _ h
            simp only [h7, Work.ops_seq, Work.ops_tick]
            omega
          simp only [if_neg h6] at h ⊢
          by_cases h6 : c = 0x5B
          · simp only [if_pos h6, Work.ops_seq, Work.ops_call] at h ⊢
            obtain ⟨⟨v', t'⟩, h7, h⟩ := bind_inv h
            dsimp only at h
            have := iha _ _ _ _ h7
            have := iho _ _ _ _ h
            simp only [h7, Work.ops_seq, Work.ops_tick]
            omega
          simp only [if_neg h6, Work.ops_seq, Work.ops_tick] at h ⊢
          obtain ⟨o, h7, h⟩ := bind_inv h
          cases o with
          | none => cases h
          | some q =>
            obtain ⟨v', t'⟩ := q
            have := scalarWork_ge h7
            have := iho _ _ _ _ h
            simp only [h7, Work.ops_seq, Work.ops_tick]
            omega

theorem iterWork_ge (E : Env) (s : Bytes) (v : V) (h : unmarshalWithIter E s = .ok v) : s.length ≤ (iterWork E s).ops := by
  unfold unmarshalWithIter at h
  unfold iterWork
  cases hs : skipBlanks s with
  | nil => rw [hs] at h; cases h
  | cons c t =>
    rw [hs] at h
    have hk := skipWork_cons hs
    simp only at h
    obtain ⟨⟨v', r⟩, h1, h⟩ := bind_inv h
    obtain ⟨iha, iho⟩ := loopWork_ge E (s.length + 1)
    have key : t.length ≤ (valueWork E (s.length + 1) c t).ops + r.length := by
      unfold parseValue at h1
      unfold valueWork
      split at h1
      · rename_i h2; rw [if_pos h2]; exact iho _ _ _ _ h1
      · rename_i h2; rw [if_neg h2]
        split at h1
        · rename_i h3; rw [if_pos h3]; exact iha _ _ _ _ h1
        · rename_i h3; rw [if_neg h3]
          obtain ⟨o, h4, h1⟩ := bind_inv h1
          cases o with
          | none => cases h1
          | some q =>
            cases h1
            exact scalarWork_ge h4
    simp only at h
    split at h
    · rename_i h5
      simp only [Work.ops_seq, Work.ops_tick, h1, skipWork_nil h5]
      omega
    · cases h

/-! ### brackets -/

def brackets : Nat → V
  | 0 => .arr []
  | n + 1 => .arr [brackets n]

theorem brackets_nesting : ∀ n, nesting (brackets n) = n + 1
  | 0 => by simp [brackets, nesting, nestingL]
  | n + 1 => by simp [brackets, nesting, nestingL, brackets_nesting n]

theorem brackets_parsed (E : Env) (r : Bytes) : ∀ (n f : Nat), n + 2 ≤ f → arrLoop E f (List.replicate n 0x5B ++ List.replicate (n + 1) 0x5D ++ r) [] = .ok (brackets n, r)
  | 0, f + 1, _ => by
    rw [arrLoop]
    simp [skipBlanks, isBlank, brackets]
  | n + 1, f + 1, h => by
    rw [arrLoop]
    have ht : List.replicate (n + 1) (0x5B : UInt8) ++ List.replicate (n + 2) 0x5D ++ r =
        0x5B :: (List.replicate n 0x5B ++ List.replicate (n + 1) 0x5D ++ (0x5D :: r)) := by
      rw [List.replicate_succ, List.replicate_succ' (n := n + 1)]; simp
    have hb := brackets_parsed (r := 0x5D :: r) E n f (by omega)
    rw [ht, skipBlanks, if_neg (by decide)]
    simp only [if_neg (show ¬ (0x5B : UInt8) = 0x5D by decide), if_neg (show ¬ (0x5B : UInt8) = 0x2C by decide), if_neg (show ¬ (0x5B : UInt8) = 0x7B by decide), if_true, hb, R.bind_ok]
    obtain ⟨g, rfl⟩ : ∃ g, f = g + 1 := ⟨f - 1, by omega⟩
    rw [arrLoop]
    simp [skipBlanks, isBlank, brackets]

theorem brackets_accepted (E : Env) (n : Nat) : unmarshal E (List.replicate (n + 1) 0x5B ++ List.replicate (n + 1) 0x5D) = .ok (brackets n) := by
  unfold unmarshal
  rw [if_neg (by simp), unmarshalWithIter]
  have ht : List.replicate (n + 1) (0x5B : UInt8) ++ List.replicate (n + 1) 0x5D = 0x5B :: (List.replicate n 0x5B ++ List.replicate (n + 1) 0x5D ++ []) := by
    rw [List.replicate_succ]; simp
  have hb := brackets_parsed E [] n ((List.replicate (n + 1) (0x5B : UInt8) ++ List.replicate (n + 1) 0x5D).length + 1) (by simp)
  generalize hl : (List.replicate (n + 1) (0x5B : UInt8) ++ List.replicate (n + 1) 0x5D).length + 1 = l at *
  rw [ht, skipBlanks, if_neg (by decide)]
  simp only [parseValue, if_neg (show ¬ (0x5B : UInt8) = 0x7B by decide), if_true, hb, R.bind_ok]
  rfl

theorem openings_brackets (n : Nat) : openings (List.replicate n 0x5B ++ List.replicate n 0x5D) = n := by
  simp [openings, List.countP_append, List.countP_replicate]

theorem open_rejected (E : Env) : ∀ (n f : Nat) (acc : List V), ¬ ∃ q, arrLoop E f (List.replicate n 0x5B) acc = .ok q := by
  intro n
  induction n with
  | zero =>
    intro f acc
    rintro ⟨q, hq⟩
    cases f with
    | zero => simp [arrLoop] at hq
    | succ f => simp [arrLoop, skipBlanks] at hq
  | succ n ihn =>
    intro f acc
    rintro ⟨q, hq⟩
    cases f with
    | zero => simp [arrLoop] at hq
    | succ f =>
      rw [arrLoop, List.replicate_succ, skipBlanks, if_neg (by decide)] at hq
      simp only [if_neg (show ¬ (0x5B : UInt8) = 0x5D by decide), if_neg (show ¬ (0x5B : UInt8) = 0x2C by decide), if_neg (show ¬ (0x5B : UInt8) = 0x7B by decide), if_true] at hq
      obtain ⟨q', h3, _⟩ := bind_inv hq
      exact ihn _ _ ⟨q', h3⟩

theorem open_depth (E : Env) : ∀ (n f : Nat), n < f → (arrWork E f (List.replicate n 0x5B) []).depth = n
  | 0, f + 1, _ => by rw [arrWork]; simp [skipBlanks]
  | n + 1, f + 1, h => by
    have ih := open_depth E n f (by omega)
    have h2 := open_rejected E
    rw [arrWork, List.replicate_succ, skipBlanks, if_neg (by decide)]
    simp only [if_neg (show ¬ (0x5B : UInt8) = 0x5D by decide), if_neg (show ¬ (0x5B : UInt8) = 0x2C by decide), if_neg (show ¬ (0x5B : UInt8) = 0x7B by decide), if_true,
      Work.depth_seq, Work.depth_tick, Work.depth_call, ih]
    cases hr : arrLoop E f (List.replicate n 0x5B) [] with
    | ok q => exact absurd ⟨q, hr⟩ (h2 n f [])
    | err e => simp
    | panic => simp
    | diverge => simp

end JV
