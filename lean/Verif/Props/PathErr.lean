import Verif.Proofs.PathErr
import Verif.Proofs.Calls
import Verif.Props.Modify
/-!
C79: the errors of Get, Set, Insert, Append and Delete.
-/
namespace JV
open Spec

/-- The error of Get is determined by the first parameter that does not lead on. -/
theorem C79_get (E : Env) (v : V) (ps : List Param) (e : Err) (hne : ps ≠ []) (hp : Plain ps) : get E v ps = .err e ↔ GetFails v ps e := get_err_iff E v ps e hne hp

/-- Delete gives the same errors. -/
theorem C79_delete (E : Env) (v : V) (ps : List Param) (e : Err) (hne : ps ≠ []) (hp : Plain ps) : (delete E false v ps).2 = .err e ↔ GetFails v ps e :=
  delete_err_iff E v ps e hne hp

/-- Set: for a child that exists and was imported without an error -/
theorem C79_set (E : Env) (v : V) (ch : Ch) (ps : List Param) (e : Err) (hne : ps ≠ []) (hp : Plain ps) (hc : Solid ch.c) (hi : ch.err = none) :
    (set E v ch ps).2 = .err e ↔ SetFails v ps e := by
  unfold set
  rw [hi]
  exact setAt_err_iff E ch.c (solid_uninit.1 hc) e ps v hne hp

/-- a child that could not be imported, or that does not exist -/
theorem C79_set_child (E : Env) (v : V) (ch : Ch) (ps : List Param) (hne : ps ≠ []) (hp : Plain ps) :
    (∀ e, ch.err = some e → (set E v ch ps).2 = .err e) ∧ (ch.err = none → ¬ Solid ch.c → (set E v ch ps).2 = .err .valueUninitialized) := by
  constructor
  · intro e h; unfold set; rw [h]
  · intro h hc
    have hu : ch.c.uninit = true := by rw [solid_uninit] at hc; simpa using hc
    unfold set
    rw [h]
    match ps with
    | [] => exact absurd rfl hne
    | [p] => simp only; rw [setAt_one, setAt1_plain _ _ _ _ (plain_tail hp).1, if_pos (by simp [hu])]
    | p :: q :: qs => simp only; rw [setAt_cons_uninit _ _ _ _ _ _ (plain_tail hp).1 (by simp [hu])]

/-- Insert, before or after -/
theorem C79_insert (E : Env) (after : Bool) (v : V) (ch : Ch) (ps : List Param) (e : Err) (hv : v ≠ .nilp) (hne : ps ≠ []) (hp : Plain ps) (hi : ch.err = none) :
    (insert E after v ch ps).2 = .err e ↔ InsertFails v ps e := by
  unfold insert
  rw [hi]
  exact insert_err_iff E after v ch.c ps e hv hne hp

/-- Append, at either end; without parameters to the value itself -/
theorem C79_append (E : Env) (beg : Bool) (v : V) (ch : Ch) (ps : List Param) (e : Err) (hv : v ≠ .nilp) (hp : Plain ps) :
    (append E beg v ch ps).2 = .err e ↔ AppendFails v ps e := append_err_iff E beg v ch.c ps e hv hp

/-- the value that a path, which may be empty, leads to -/
def Reaches (E : Env) (v : V) (pre : List Param) (o : V) : Prop := (pre = [] ∧ o = v) ∨ get E v pre = .ok o

theorem reaches_there (E : Env) {v c o : V} {p : Param} {pre : List Param} (hp : p.isSlice = false) (h1 : Reach1 v p c) (h2 : Reaches E c pre o) : Reaches E v (p :: pre) o := by
  obtain ⟨s, hl, hc⟩ := (reach1_iff E).1 h1
  have hone : get E v [p] = .ok c := by
    rw [get_iff]
    rcases locate_ok (by rw [hl]) with ⟨n, kvs, low, k, d, rfl, rfl, rfl, _⟩ | ⟨xs, z, i, d, rfl, hz, hi, rfl, _⟩
    · exact ⟨[.key k], .key _ _ _ _ _ hc, by simp [V.at, hc]⟩
    · exact ⟨[.idx i], .idx _ _ _ _ hz hi, by simp [V.at, hc]⟩
  rcases h2 with ⟨rfl, rfl⟩ | h2
  · exact .inr hone
  · match pre with
    | [] => simp [get, getC, fetch, resolve] at h2
    | q :: qs => exact .inr (by rw [show p :: q :: qs = [p] ++ q :: qs from rfl, get_pre E hone (by intro x hx; simp at hx; rw [hx]; exact hp)]; exact h2)

theorem getFails_reaches (E : Env) {v : V} {ps : List Param} {e : Err} (h : GetFails v ps e) (hp : Plain ps) :
    ∃ pre p rest o, ps = pre ++ p :: rest ∧ Reaches E v pre o ∧ (Unfit o p e ∨ Missing o p e) := by
  induction h with
  | unfit v p ps e h => exact ⟨[], p, ps, v, rfl, .inl ⟨rfl, rfl⟩, .inl h⟩
  | missing v p ps e h => exact ⟨[], p, ps, v, rfl, .inl ⟨rfl, rfl⟩, .inr h⟩
  | there v p c ps e h1 _ ih =>
    obtain ⟨hp1, hp2⟩ := plain_tail hp
    obtain ⟨pre, q, rest, o, rfl, h3, h4⟩ := ih hp2
    exact ⟨p :: pre, q, rest, o, rfl, reaches_there E hp1 h1 h3, h4⟩

theorem stops_get (E : Env) {v o : V} {pre rest : List Param} {p : Param} {e : Err} (hp : Plain (pre ++ p :: rest)) (hr : Reaches E v pre o) (h : Unfit o p e ∨ Missing o p e) :
    get E v (pre ++ p :: rest) = .err e := by
  have hg : get E o (p :: rest) = .err e := by
    rw [get_err_iff E o _ e (by simp) (fun q hq => hp q (List.mem_append_right _ hq))]
    rcases h with h | h
    · exact .unfit _ _ _ _ h
    · exact .missing _ _ _ _ h
  rcases hr with ⟨rfl, rfl⟩ | hr
  · exact hg
  · rw [get_pre E hr (fun q hq => hp q (List.mem_append_left _ hq))]; exact hg

/-- ErrNotFound means exactly this: the path leads to an object that does not have the next key. -/
theorem C79_not_found (E : Env) (v : V) (ps : List Param) (hne : ps ≠ []) (hp : Plain ps) : get E v ps = .err .notFound ↔
    ∃ pre k rest n kvs low, ps = pre ++ .str k :: rest ∧ Reaches E v pre (.obj n kvs low) ∧ ∀ e ∈ kvs, e.key ≠ k := by
  constructor
  · intro h
    obtain ⟨pre, p, rest, o, rfl, hr, h'⟩ := getFails_reaches E ((get_err_iff E v ps _ hne hp).1 h) hp
    rcases h' with h' | h'
    · cases h'
    · cases h' with
      | key n kvs low k hc =>
        refine ⟨pre, k, rest, n, kvs, low, rfl, hr, fun e he hk => ?_⟩
        rw [child_key] at hc
        have := (lookup_none (k := k) (kvs := kvs)).1 (by cases hl : lookup k kvs <;> simp_all)
        exact this (hk ▸ List.mem_map_of_mem he)
  · rintro ⟨pre, k, rest, n, kvs, low, rfl, hr, hk⟩
    refine stops_get E hp hr (.inr (.key _ _ _ _ ?_))
    rw [child_key, lookup_none.2 (fun h => by obtain ⟨e, he, h⟩ := List.mem_map.1 h; exact hk e he h)]; rfl

/-- ErrOutOfRange means exactly this: the path leads to an array, and the next index is not in it. -/
theorem C79_out_of_range (E : Env) (v : V) (ps : List Param) (hne : ps ≠ []) (hp : Plain ps) : get E v ps = .err .outOfRange ↔
    ∃ pre p z rest xs, ps = pre ++ p :: rest ∧ Reaches E v pre (.arr xs) ∧ intOf p = some z ∧ (z < -(xs.length : Int) ∨ (xs.length : Int) ≤ z) := by
  have hi : ∀ (n : Nat) (z : Int), index n z = none ↔ (z < -(n : Int) ∨ (n : Int) ≤ z) := by
    intro n z
    unfold index
    split
    · simp; omega
    · split
      · simp; omega
      · simp; omega
  constructor
  · intro h
    obtain ⟨pre, p, rest, o, rfl, hr, h'⟩ := getFails_reaches E ((get_err_iff E v ps _ hne hp).1 h) hp
    rcases h' with h' | h'
    · cases h'
    · cases h' with
      | idx xs _ z h1 h2 => exact ⟨pre, p, z, rest, xs, rfl, hr, h1, (hi _ _).1 h2⟩
  · rintro ⟨pre, p, z, rest, xs, rfl, hr, hz, h⟩
    exact stops_get E hp hr (.inr (.idx _ _ _ hz ((hi _ _).2 h)))

theorem makeFails_ne {ps : List Param} {e : Err} (h : MakeFails ps e) : e ≠ .notFound := by
  induction h <;> simp_all

theorem setFails_ne {v : V} {ps : List Param} {e : Err} (h : SetFails v ps e) : e ≠ .notFound := by
  induction h with
  | unfit _ _ _ _ _ h => cases h <;> simp
  | make _ _ _ _ _ _ _ h => exact makeFails_ne h
  | there _ _ _ _ _ _ _ _ ih => exact ih
  | _ => simp

/-- Set and Append make what is missing, so that they never report ErrNotFound (unless Import gave it for the child). -/
theorem C79_never_not_found (E : Env) (beg : Bool) (v : V) (ch : Ch) (ps : List Param) (hv : v ≠ .nilp) (hne : ps ≠ []) (hp : Plain ps) :
    (ch.err = none → (set E v ch ps).2 ≠ .err .notFound) ∧ (append E beg v ch ps).2 ≠ .err .notFound := by
  constructor
  · intro hi h
    by_cases hc : Solid ch.c
    · exact setFails_ne ((C79_set E v ch ps _ hne hp hc hi).1 h) rfl
    · rw [(C79_set_child E v ch ps hne hp).2 hi hc] at h; cases h
  · intro h
    cases (C79_append E beg v ch ps _ hv hp).1 h with
    | array _ _ _ _ _ h => exact h rfl
    | make _ _ _ _ _ h => exact setFails_ne h rfl

theorem plain_slice {qs ps : List Param} (h : Plain (.slice qs :: ps)) : False := by simpa [Param.isSlice] using h (.slice qs) (by simp)

theorem setFails_addr {v : V} {ps : List Param} {e : Err} (h : SetFails v ps e) : Plain ps → ∀ l, ¬ Addr v ps l := by
  induction h with
  | uninit v p ps h => intro _ l ha; exact h (addr_init ha)
  | unfit v p ps e _ h =>
    intro hp l ha
    cases h with
    | notKey _ _ _ _ h => cases ha <;> first | exact absurd rfl (h _) | exact (plain_slice hp).elim
    | nilIndex => cases ha <;> simp_all [intOf]
    | notIndex _ _ h => cases ha <;> first | exact (plain_slice hp).elim | simp_all
    | scalar _ _ _ h1 h2 =>
      rcases addr_not_scalar ha with ⟨_, _, _, rfl⟩ | ⟨_, rfl⟩
      · exact h2 _ _ _ rfl
      · exact h1 _ rfl
  | range xs p z h1 h2 =>
    intro hp l ha
    cases ha with
    | slice => exact (plain_slice hp).elim
    | idx _ _ z' i h3 h4 => rw [h1] at h3; cases h3; rw [h2] at h4; cases h4
  | make v p q ps e e' h =>
    intro hp l ha
    cases h with
    | key _ _ _ _ h => cases ha with | keyCons _ _ _ _ _ _ _ _ h' => rw [h] at h'; cases h'
    | idx _ _ z h1 h2 => cases ha with | idxCons _ _ z' _ _ _ _ _ h3 h4 => rw [h1] at h3; cases h3; rw [h2] at h4; cases h4
  | there v p c q ps e h1 _ ih =>
    intro hp l ha
    cases h1 with
    | key _ _ _ _ _ h => cases ha with | keyCons _ _ _ _ _ _ _ _ h' h'' => rw [h] at h'; cases h'; exact ih (plain_tail hp).2 _ h''
    | idx _ _ z i _ h1 h2 h5 =>
      cases ha with
      | idxCons _ _ z' _ _ _ _ _ h3 h4 h6 h7 => rw [h1] at h3; cases h3; rw [h2] at h4; cases h4; rw [h5] at h6; cases h6; exact ih (plain_tail hp).2 _ h7

/-- Where Get finds something, Set does not fail. -/
theorem C79_set_over (E : Env) (v c : V) (ch : Ch) (ps : List Param) (hne : ps ≠ []) (hp : Plain ps) (hg : get E v ps = .ok c) (hc : Solid ch.c) (hi : ch.err = none) :
    ∃ l, (set E v ch ps).2 = .ok l := by
  have hnf : ∀ e, ¬ SetFails v ps e := by
    intro e h
    obtain ⟨l, hl, _⟩ := (get_iff E v ps c).1 hg
    exact setFails_addr h hp l hl
  have hr := set_returns (E := E) (v := v) (ch := ch) hne
  cases hs : (set E v ch ps).2 with
  | ok l => exact ⟨l, rfl⟩
  | err e => exact absurd ((C79_set E v ch ps e hne hp hc hi).1 hs) (hnf e)
  | panic => rw [hs] at hr; cases hr
  | diverge => rw [hs] at hr; cases hr

/-- the document `{"a":[1,{}],"b":null}` -/
def pathErrSample : V := .obj 2 [⟨asc "a", 1, .arr [sampleNum "1", .obj 0 [] none]⟩, ⟨asc "b", 2, .null⟩] none
example : get sampleEnv pathErrSample [.str (asc "a"), .int 1, .str (asc "x"), .int 5] = .err .notFound ∧ get sampleEnv pathErrSample [.str (asc "a"), .int 2] = .err .outOfRange ∧
    get sampleEnv pathErrSample [.str (asc "a"), .str (asc "0")] = .err .other ∧ get sampleEnv pathErrSample [.int 0] = .err .parameterError ∧
    get sampleEnv pathErrSample [.str (asc "b"), .str (asc "c")] = .err .other := by decide +kernel
example : (set sampleEnv pathErrSample { c := .null } [.str (asc "x"), .int 0, .str (asc "y"), .int 1, .int 0]).2 = .err .outOfRange ∧
    (set sampleEnv pathErrSample { c := .null } [.str (asc "a"), .int 3]).2 = .err .outOfRange ∧
    (set sampleEnv pathErrSample { c := .null } [.str (asc "b"), .str (asc "c")]).2 = .err .other ∧
    (set sampleEnv pathErrSample { c := .null } [.str (asc "a"), .int 1, .nil]).2 = .err .parameterError := by decide +kernel
example : (insert sampleEnv true pathErrSample { c := .null } [.str (asc "b"), .int 0]).2 = .err .typeNotMatch ∧
    (insert sampleEnv true pathErrSample { c := .null } [.int 0]).2 = .err .notArrayValue ∧
    (insert sampleEnv false pathErrSample { c := .null } [.str (asc "x"), .int 0]).2 = .err .notFound ∧
    (insert sampleEnv false pathErrSample { c := .null } [.str (asc "a"), .int 2]).2 = .err .outOfRange := by decide +kernel
example : (append sampleEnv true pathErrSample { c := .null } [.str (asc "a"), .int 1, .str (asc "x"), .int 1]).2 = .err .outOfRange ∧
    (append sampleEnv true pathErrSample { c := .null } [.str (asc "b")]).2 = .err .typeNotMatch ∧ (append sampleEnv true pathErrSample { c := .null } []).2 = .err .notArrayValue := by
  decide +kernel
example : Plain [.str (asc "a"), .int 1, .nil] ∧ Reaches sampleEnv pathErrSample [] pathErrSample := ⟨by intro p hp; simp at hp; rcases hp with rfl | rfl | rfl <;> rfl, .inl ⟨rfl, rfl⟩⟩

end JV
