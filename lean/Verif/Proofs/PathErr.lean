import Verif.Spec.PathErr
import Verif.Proofs.Compose
import Verif.Proofs.Set
/-!
Errors of path access.
-/
namespace JV
open Spec

theorem plain_tail {p : Param} {ps : List Param} (h : Plain (p :: ps)) : p.isSlice = false ∧ Plain ps :=
  ⟨h p (by simp), fun q hq => h q (by simp [hq])⟩

theorem unfit_arr {xs : List V} {p : Param} (h : intOf p = none) : Unfit (.arr xs) p (intErr p) := by
  cases p with
  | nil => exact .nilIndex _
  | int _ => simp [intOf] at h
  | uint _ => simp [intOf] at h
  | _ => exact .notIndex _ _ h (by simp)

theorem unfit_arr_inv {xs : List V} {p : Param} {e : Err} (h : Unfit (.arr xs) p e) : intOf p = none ∧ e = intErr p := by
  cases h with
  | nilIndex => exact ⟨rfl, rfl⟩
  | notIndex _ _ h1 h2 => exact ⟨h1, by cases p <;> simp_all [intErr]⟩
  | scalar _ _ _ h => exact absurd rfl (h xs)

theorem locate_err_iff (E : Env) (v : V) (p : Param) (e : Err) : (locate E false v p).2 = .err e ↔ Unfit v p e ∨ Missing v p e := by
  match v with
  | .arr xs =>
    rw [locate_arr]
    cases hz : intOf p with
    | none =>
      simp only
      constructor
      · intro h; cases h; exact .inl (unfit_arr hz)
      · rintro (h | h)
        · rw [(unfit_arr_inv h).2]
        · cases h with | idx _ _ z h1 => simp [hz] at h1
    | some z =>
      simp only
      cases hi : index xs.length z with
      | none =>
        simp only
        constructor
        · intro h; cases h; exact .inr (.idx _ _ z hz hi)
        · rintro (h | h)
          · rw [(unfit_arr_inv h).1] at hz; cases hz
          · cases h with | idx _ _ z h1 => rfl
      | some i =>
        simp only
        constructor
        · intro h; cases h
        · rintro (h | h)
          · rw [(unfit_arr_inv h).1] at hz; cases hz
          · cases h with | idx _ _ z' h1 h2 => rw [hz] at h1; cases h1; rw [hi] at h2; cases h2
  | .obj n kvs low =>
    by_cases hk : ∃ k, p = .str k
    · obtain ⟨k, rfl⟩ := hk
      rw [locate_obj]
      simp only
      have hnu : ∀ {e}, ¬ Unfit (.obj n kvs low) (.str k) e := by
        intro e h
        cases h with
        | notKey _ _ _ _ h => exact h k rfl
        | scalar _ _ _ _ h => exact h _ _ _ rfl
      cases hl : lookup k kvs with
      | none =>
        simp only
        constructor
        · intro h; cases h; exact .inr (.key _ _ _ _ (by rw [child_key, hl]; rfl))
        · rintro (h | h)
          · exact absurd h hnu
          · cases h; rfl
      | some x =>
        simp only
        constructor
        · intro h; cases h
        · rintro (h | h)
          · exact absurd h hnu
          · cases h with | key _ _ _ _ h1 => rw [child_key, hl] at h1; cases h1
    · have hk' : ∀ k, p ≠ .str k := fun k h => hk ⟨k, h⟩
      have : (locate E false (.obj n kvs low) p).2 = .err .parameterError := by
        rw [locate_obj]
        cases p <;> first | rfl | exact absurd rfl (hk' _)
      rw [this]
      constructor
      · intro h; cases h; exact .inl (.notKey _ _ _ _ hk')
      · rintro (h | h)
        · cases h with
          | notKey => rfl
          | scalar _ _ _ _ h => exact absurd rfl (h _ _ _)
        · cases h; exact absurd rfl (hk' _)
  | .nilp =>
    constructor
    · intro h; cases h
    · rintro (h | h)
      · cases h with | scalar _ _ h => exact absurd rfl h
      · cases h
  | .notExist | .str _ | .num _ _ | .bool _ | .null =>
    constructor
    · intro h; cases h; exact .inl (.scalar _ _ (by simp) (by simp) (by simp))
    · rintro (h | h)
      · cases h; rfl
      · cases h

theorem reach1_iff (E : Env) {v : V} {p : Param} {c : V} : Reach1 v p c ↔ ∃ s, locate E false v p = (v, .ok s) ∧ v.child s = some c := by
  constructor
  · intro h
    cases h with
    | key n kvs low k _ hc => exact ⟨.key k, locate_key hc, hc⟩
    | idx xs _ z i _ hz hi hc => exact ⟨.idx i, locate_idx hz hi, hc⟩
  · rintro ⟨s, hl, hc⟩
    rcases locate_ok (by rw [hl]) with ⟨n, kvs, low, k, d, rfl, rfl, rfl, _⟩ | ⟨xs, z, i, d, rfl, hz, hi, rfl, _⟩
    · exact .key _ _ _ _ _ hc
    · exact .idx _ _ _ _ _ hz hi hc

theorem resolve_one_err (E : Env) (v : V) (p : Param) (e : Err) (hp : p.isSlice = false) :
    (resolve E false v [p]).2 = .err e ↔ (locate E false v p).2 = .err e := by
  rw [resolve_one, resolve1_nonslice _ _ _ _ hp]
  cases (locate E false v p).2 <;> simp

theorem not_getFails_nil {v : V} {e : Err} : ¬ GetFails v [] e := fun h => nomatch h

theorem resolve_err_iff (E : Env) (e : Err) : ∀ (ps : List Param) (v : V), ps ≠ [] → Plain ps → ((resolve E false v ps).2 = .err e ↔ GetFails v ps e)
  | [], _, h, _ => absurd rfl h
  | [p], v, _, hp => by
    rw [resolve_one_err _ _ _ _ (plain_tail hp).1, locate_err_iff]
    constructor
    · rintro (h | h)
      · exact .unfit _ _ _ _ h
      · exact .missing _ _ _ _ h
    · intro h
      cases h with
      | unfit _ _ _ _ h => exact .inl h
      | missing _ _ _ _ h => exact .inr h
      | there _ _ _ _ _ _ h => exact absurd h not_getFails_nil
  | p :: q :: qs, v, _, hp => by
    obtain ⟨hp1, hp2⟩ := plain_tail hp
    rcases locate_cases E v p with ⟨s, h⟩ | ⟨e', h⟩ | ⟨h, rfl⟩
    · have hl : locate E false v p = (v, .ok s) := Prod.ext (locate_plain E v p) h
      have hc : ∃ c, v.child s = some c := by
        rcases locate_ok h with ⟨_, _, _, _, c, _, _, _, hc⟩ | ⟨_, _, _, c, _, _, _, _, hc⟩ <;> exact ⟨c, hc⟩
      obtain ⟨c, hc⟩ := hc
      rw [resolve_step hp1 hl hc]
      have ih := resolve_err_iff E e (q :: qs) c (by simp) hp2
      constructor
      · intro h'
        refine .there _ _ c _ _ ((reach1_iff E).2 ⟨s, hl, hc⟩) (ih.1 ?_)
        revert h'
        cases (resolve E false c (q :: qs)).2 <;> simp [below]
      · intro h'
        cases h' with
        | unfit _ _ _ _ h1 => rw [(locate_err_iff E v p e).2 (.inl h1)] at h; cases h
        | missing _ _ _ _ h1 => rw [(locate_err_iff E v p e).2 (.inr h1)] at h; cases h
        | there _ _ c' _ _ h1 h2 =>
          obtain ⟨s', hl', hc'⟩ := (reach1_iff E).1 h1
          rw [hl] at hl'; cases hl'
          rw [hc] at hc'; cases hc'
          simp [below, ih.2 h2]
    · rw [locate_err_cons hp1 h]
      constructor
      · intro h'; cases h'
        rcases (locate_err_iff E v p _).1 h with h | h
        · exact .unfit _ _ _ _ h
        · exact .missing _ _ _ _ h
      · intro h'
        cases h' with
        | unfit _ _ _ _ h1 => rw [(locate_err_iff E v p e).2 (.inl h1)] at h; cases h; rfl
        | missing _ _ _ _ h1 => rw [(locate_err_iff E v p e).2 (.inr h1)] at h; cases h; rfl
        | there _ _ c' _ _ h1 h2 =>
          obtain ⟨s', hl', hc'⟩ := (reach1_iff E).1 h1
          rw [hl'] at h; cases h
    · constructor
      · intro h'
        unfold resolve at h'
        rw [if_neg (by simp), if_neg (by simp [hp1])] at h'
        simp [locate] at h'
      · intro h'
        cases h' with
        | unfit _ _ _ _ h1 => cases h1 with | scalar _ _ h => exact absurd rfl h
        | missing _ _ _ _ h1 => cases h1
        | there _ _ c' _ _ h1 h2 => cases h1

theorem get_err_iff (E : Env) (v : V) (ps : List Param) (e : Err) (hne : ps ≠ []) (hp : Plain ps) : get E v ps = .err e ↔ GetFails v ps e := by
  rw [← resolve_err_iff E e ps v hne hp]
  constructor
  · exact get_err_resolve
  · intro h
    unfold get getC fetch
    simp [h]

theorem resolve_pre_panic (E : Env) (q : Param) : ∀ (pre : List Param) (v : V), pre ≠ [] → Plain pre → (resolve E false v pre).2 = .panic →
    (resolve E false v (pre ++ [q])).2 = .panic
  | [], _, h, _, _ => absurd rfl h
  | [p], v, _, hp, h => by
    have hp1 := (plain_tail hp).1
    rw [resolve_one, resolve1_nonslice _ _ _ _ hp1] at h
    rcases locate_cases E v p with ⟨s, hl⟩ | ⟨e, hl⟩ | ⟨hl, rfl⟩
    · rw [hl] at h; cases h
    · rw [hl] at h; cases h
    · simp only [List.cons_append, List.nil_append]
      unfold resolve
      rw [if_neg (by simp), if_neg (by simp [hp1])]
      rfl
  | p :: p' :: ps, v, _, hp, h => by
    obtain ⟨hp1, hp2⟩ := plain_tail hp
    rcases locate_cases E v p with ⟨s, hl⟩ | ⟨e, hl⟩ | ⟨hl, rfl⟩
    · have hl' : locate E false v p = (v, .ok s) := Prod.ext (locate_plain E v p) hl
      have hc : ∃ c, v.child s = some c := by
        rcases locate_ok hl with ⟨_, _, _, _, c, _, _, _, hc⟩ | ⟨_, _, _, c, _, _, _, _, hc⟩ <;> exact ⟨c, hc⟩
      obtain ⟨c, hc⟩ := hc
      rw [resolve_step hp1 hl' hc] at h
      have := resolve_pre_panic E q (p' :: ps) c (by simp) hp2 (by revert h; cases (resolve E false c (p' :: ps)).2 <;> simp [below])
      rw [List.cons_append, List.cons_append, resolve_step hp1 hl' hc]
      rw [List.cons_append] at this
      rw [this]; rfl
    · rw [locate_err_cons hp1 hl] at h; cases h
    · simp only [List.cons_append, List.nil_append]
      unfold resolve
      rw [if_neg (by simp), if_neg (by simp [hp1])]
      rfl

/-- the last parameter -/
theorem getFails_snoc (E : Env) {v : V} (p : Param) (e : Err) : ∀ {pre : List Param}, pre ≠ [] → Plain (pre ++ [p]) →
    (GetFails v (pre ++ [p]) e ↔ GetFails v pre e ∨ ∃ l a, Addr v pre l ∧ v.at l = some a ∧ (Unfit a p e ∨ Missing a p e)) := by
  intro pre hne hp
  have hp1 : Plain pre := fun q hq => hp q (by simp [hq])
  have hp2 : p.isSlice = false := hp p (by simp)
  rw [← resolve_err_iff E e _ v (by simp) hp]
  rcases resolve_cases E pre v with ⟨l, h⟩ | ⟨e', h⟩ | ⟨h, _⟩
  · have ha := (resolve_iff E v pre l).1 h
    obtain ⟨a, hat⟩ := addr_at ha
    rw [resolve_pre E ha hp1 hat]
    constructor
    · intro h'
      refine .inr ⟨l, a, ha, hat, (locate_err_iff E a p e).1 ((resolve_one_err E a p e hp2).1 ?_)⟩
      revert h'
      cases (resolve E false a [p]).2 <;> simp [below]
    · rintro (h' | ⟨m, b, hm, hb, h'⟩)
      · rw [(resolve_err_iff E e pre v hne hp1).2 h'] at h; cases h
      · cases addr_det ha hm
        rw [hat] at hb; cases hb
        rw [(resolve_one_err E a p e hp2).2 ((locate_err_iff E a p e).2 h')]
        rfl
  · rw [resolve_pre_err E p [] e' pre v hp1 h]
    constructor
    · intro h'; cases h'
      exact .inl ((resolve_err_iff E _ pre v hne hp1).1 h)
    · rintro (h' | ⟨m, b, hm, hb, h'⟩)
      · rw [(resolve_err_iff E e pre v hne hp1).2 h'] at h; exact h.symm
      · rw [(resolve_iff E v pre m).2 hm] at h; cases h
  · constructor
    · intro h'
      exfalso
      have := resolve_pre_panic E p pre v hne hp1 h
      rw [this] at h'; cases h'
    · rintro (h' | ⟨m, b, hm, hb, h'⟩)
      · rw [(resolve_err_iff E e pre v hne hp1).2 h'] at h; cases h
      · rw [(resolve_iff E v pre m).2 hm] at h; cases h

theorem deleteLast_err_iff (E : Env) (v : V) (p : Param) (e : Err) : (deleteLast E false v p).2 = .err e ↔ Unfit v p e ∨ Missing v p e := by
  rw [← locate_err_iff E]
  match v with
  | .arr xs =>
    rw [locate_arr, deleteLast_arr]
    cases hz : intOf p with
    | none => simp
    | some z =>
      simp only
      cases hi : index xs.length z <;> simp
  | .obj n kvs low =>
    rw [locate_obj, deleteLast_obj]
    cases p with
    | str k => simp only; cases lookup k kvs <;> simp
    | _ => simp
  | .nilp => simp [deleteLast, locate]
  | .notExist | .str _ | .num _ _ | .bool _ | .null => simp [deleteLast, locate]

theorem delete_err_iff (E : Env) (v : V) (ps : List Param) (e : Err) (hne : ps ≠ []) (hp : Plain ps) :
    (delete E false v ps).2 = .err e ↔ GetFails v ps e := by
  unfold delete
  obtain ⟨pre, p, rfl⟩ : ∃ pre p, ps = pre ++ [p] := ⟨_, _, (List.dropLast_concat_getLast hne).symm⟩
  have hp2 : p.isSlice = false := hp p (by simp)
  rw [deleteAt_pre, List.nil_append]
  match pre with
  | [] =>
    rw [deleteAt_one, deleteAt1_nonslice _ _ _ _ hp2, deleteLast_err_iff, ← locate_err_iff E, ← resolve_one_err E v p e hp2, ← resolve_err_iff E e _ v (by simp) hp]
    rfl
  | a :: pre =>
    have hp1 : Plain (a :: pre) := fun q hq => hp q (List.mem_append_left _ hq)
    rw [getFails_snoc E p e (by simp) hp, deleteAt_last, if_neg (by simp [hp1 a (by simp)])]
    rcases resolve_cases E (a :: pre) v with ⟨l, h⟩ | ⟨e', h⟩ | ⟨h, _⟩
    · have ha := (resolve_iff E v (a :: pre) l).1 h
      obtain ⟨b, hat⟩ := addr_at ha
      rw [h]
      simp only
      rw [modify_eq _ hat]
      simp only
      rw [deleteAt1_nonslice _ _ _ _ hp2, deleteLast_err_iff]
      constructor
      · intro h'; exact .inr ⟨l, b, ha, hat, h'⟩
      · rintro (h' | ⟨m, b', hm, hb, h'⟩)
        · rw [(resolve_err_iff E e _ v (by simp) hp1).2 h'] at h; cases h
        · cases addr_det ha hm
          rw [hat] at hb; cases hb
          exact h'
    · rw [h]
      constructor
      · intro h'; cases h'
        exact .inl ((resolve_err_iff E _ _ v (by simp) hp1).1 h)
      · rintro (h' | ⟨m, b, hm, hb, h'⟩)
        · rw [(resolve_err_iff E e _ v (by simp) hp1).2 h'] at h; cases h; rfl
        · rw [(resolve_iff E v _ m).2 hm] at h; cases h
    · rw [h]
      constructor
      · intro h'; cases h'
      · rintro (h' | ⟨m, b, hm, hb, h'⟩)
        · rw [(resolve_err_iff E e _ v (by simp) hp1).2 h'] at h; cases h
        · rw [(resolve_iff E v _ m).2 hm] at h; cases h

theorem makeFails_nil {e : Err} : ¬ MakeFails [] e := fun h => nomatch h

theorem freshFor_str (k : Bytes) : freshFor (.str k) = some newObject := rfl

theorem freshFor_cases (q : Param) : (∃ k, q = .str k ∧ freshFor q = some newObject) ∨ ((∀ k, q ≠ .str k) ∧ intOf q = some 0 ∧ freshFor q = some newArray) ∨
    ((∀ k, q ≠ .str k) ∧ intOf q ≠ some 0 ∧ freshFor q = none) := by
  by_cases hk : ∃ k, q = .str k
  · obtain ⟨k, rfl⟩ := hk; exact .inl ⟨k, rfl, rfl⟩
  · have hk' : ∀ k, q ≠ .str k := fun k h => hk ⟨k, h⟩
    have : freshFor q = if intOf q = some 0 then some newArray else none := by
      cases q <;> first | rfl | exact absurd rfl (hk' _)
    by_cases hz : intOf q = some 0
    · exact .inr (.inl ⟨hk', hz, by rw [this, if_pos hz]⟩)
    · exact .inr (.inr ⟨hk', hz, by rw [this, if_neg hz]⟩)

/-- why there is no container for a parameter -/
theorem makeFails_none {q : Param} {qs : List Param} {e : Err} (h : freshFor q = none) :
    MakeFails (q :: qs) e ↔ (if (intOf q).isSome then (.err .outOfRange : R (List Step)) else .err .other) = .err e := by
  rcases freshFor_cases q with ⟨k, _, h'⟩ | ⟨_, _, h'⟩ | ⟨hk, hz, _⟩
  · rw [h] at h'; cases h'
  · rw [h] at h'; cases h'
  · constructor
    · intro hm
      cases hm with
      | index _ _ z h1 h2 => simp [h1]
      | kind _ _ h1 h2 => simp [h2]
      | key k _ _ _ => exact absurd rfl (hk k)
      | zero _ _ _ h1 => exact absurd h1 hz
    · intro hm
      cases hi : intOf q with
      | none => rw [hi] at hm; cases hm; exact .kind _ _ hk hi
      | some z => rw [hi] at hm; cases hm; exact .index _ _ z hi (fun h0 => hz (by rw [hi, h0]))

theorem setAt_make (E : Env) (c : V) (hc : c.uninit = false) (e : Err) : ∀ (qs : List Param) (q : Param) (d : V), freshFor q = some d → Plain (q :: qs) →
    ((setAt E d c (q :: qs)).2 = .err e ↔ MakeFails (q :: qs) e)
  | [], q, d, hd, hp => by
    have hp1 := (plain_tail hp).1
    rw [setAt_one, setAt1_plain _ _ _ _ hp1]
    rcases freshFor_cases q with ⟨k, rfl, h'⟩ | ⟨hk, hz, h'⟩ | ⟨_, _, h'⟩
    · rw [hd] at h'; cases h'
      rw [if_neg (by rw [hc]; simp [V.uninit, newObject])]
      constructor
      · intro h; cases h
      · intro h
        cases h with
        | index _ _ z h1 => cases h1
        | kind _ _ h1 => exact absurd rfl (h1 k)
        | key _ _ _ h1 => exact absurd h1 makeFails_nil
        | zero _ _ _ h1 => cases h1
    · rw [hd] at h'; cases h'
      rw [if_neg (by rw [hc]; simp [V.uninit, newArray])]
      constructor
      · intro h
        simp [atLastParam, newArray, anyToInt_eq, hz, setAtIndex] at h
      · intro h
        cases h with
        | index _ _ z h1 h2 => rw [hz] at h1; cases h1; exact absurd rfl h2
        | kind _ _ h1 h2 => rw [hz] at h2; cases h2
        | key k _ _ h1 => exact absurd h1 makeFails_nil
        | zero _ _ _ _ h1 => exact absurd h1 makeFails_nil
    · rw [hd] at h'; cases h'
  | r :: rs, q, d, hd, hp => by
    obtain ⟨hp1, hp2⟩ := plain_tail hp
    have inner : MakeFails (r :: rs) e ↔ match freshFor r with
        | some d' => (setAt E d' c (r :: rs)).2 = .err e
        | none => (if (intOf r).isSome then (.err .outOfRange : R (List Step)) else .err .other) = .err e := by
      cases hr : freshFor r with
      | some d' => exact (setAt_make E c hc e rs r d' hr hp2).symm
      | none => exact makeFails_none hr
    have hq : MakeFails (q :: r :: rs) e ↔ MakeFails (r :: rs) e := by
      constructor
      · intro h
        rcases freshFor_cases q with ⟨k, rfl, _⟩ | ⟨hk, hz, _⟩ | ⟨_, _, h'⟩
        · cases h with
          | index _ _ z h1 => cases h1
          | kind _ _ h1 => exact absurd rfl (h1 k)
          | key _ _ _ h1 => exact h1
          | zero _ _ _ h1 => cases h1
        · cases h with
          | index _ _ z h1 h2 => rw [hz] at h1; cases h1; exact absurd rfl h2
          | kind _ _ h1 h2 => rw [hz] at h2; cases h2
          | key k _ _ h1 => exact h1
          | zero _ _ _ _ h1 => exact h1
        · rw [hd] at h'; cases h'
      · intro h
        rcases freshFor_cases q with ⟨k, rfl, _⟩ | ⟨hk, hz, _⟩ | ⟨_, _, h'⟩
        · exact .key _ _ _ h
        · exact .zero _ _ _ hz h
        · rw [hd] at h'; cases h'
    rw [hq, inner]
    rcases freshFor_cases q with ⟨k, rfl, h'⟩ | ⟨hk, hz, h'⟩ | ⟨_, _, h'⟩
    · rw [hd] at h'; cases h'
      rw [setAt_cons E newObject c _ _ _ hp1 rfl hc]
      have : (V.obj 0 [] none).child (.key k) = none := rfl
      simp only [newObject, this]
      cases hr : freshFor r with
      | none => rfl
      | some d' => simp only; cases hs : (setAt E d' c (r :: rs)).2 <;> simp
    · rw [hd] at h'; cases h'
      rw [setAt_cons E newArray c _ _ _ hp1 rfl hc]
      simp only [newArray, hz]
      have : index ([] : List V).length 0 = none := by simp [index]
      simp only [this]
      cases hr : freshFor r with
      | none => rfl
      | some d' => simp only; cases hs : (setAt E d' c (r :: rs)).2 <;> simp
    · rw [hd] at h'; cases h'

theorem make_iff (E : Env) (c : V) (hc : c.uninit = false) (e : Err) (r : Param) (rs : List Param) (hp : Plain (r :: rs)) :
    MakeFails (r :: rs) e ↔ match freshFor r with
        | some d' => (setAt E d' c (r :: rs)).2 = .err e
        | none => (if (intOf r).isSome then (.err .outOfRange : R (List Step)) else .err .other) = .err e := by
  cases hr : freshFor r with
  | some d' => exact (setAt_make E c hc e rs r d' hr hp).symm
  | none => exact makeFails_none hr

theorem solid_uninit {v : V} : Solid v ↔ v.uninit = false := by
  cases v <;> simp [Solid, V.uninit]

theorem atLast_err_iff (E : Env) (v c : V) (p : Param) (e : Err) (hv : v.uninit = false) : (atLastParam E v c p).2 = .err e ↔ SetFails v [p] e := by
  have hs : Solid v := solid_uninit.2 hv
  have key : SetFails v [p] e ↔ Unfit v p e ∨ ∃ xs z, v = .arr xs ∧ e = .outOfRange ∧ intOf p = some z ∧ index xs.length z = none ∧ z ≠ xs.length := by
    constructor
    · intro h
      cases h with
      | uninit _ _ _ h => exact absurd hs h
      | unfit _ _ _ _ _ h => exact .inl h
      | range xs _ z h1 h2 h3 => exact .inr ⟨xs, z, rfl, rfl, h1, h2, h3⟩
    · rintro (h | ⟨xs, z, rfl, rfl, h1, h2, h3⟩)
      · exact .unfit _ _ _ _ hs.2 h
      · exact .range _ _ _ h1 h2 h3
  rw [key]
  match v with
  | .obj n kvs low =>
    by_cases hk : ∃ k, p = .str k
    · obtain ⟨k, rfl⟩ := hk
      constructor
      · intro h; simp [atLastParam, anyToString] at h
      · rintro (h | ⟨xs, z, h, _⟩)
        · cases h with
          | notKey _ _ _ _ h => exact absurd rfl (h k)
          | scalar _ _ _ _ h => exact absurd rfl (h _ _ _)
        · cases h
    · have hk' : ∀ k, p ≠ .str k := fun k h => hk ⟨k, h⟩
      have : atLastParam E (.obj n kvs low) c p = (.obj n kvs low, .err .parameterError) := by
        cases p <;> first | rfl | exact absurd rfl (hk' _)
      rw [this]
      constructor
      · intro h; cases h; exact .inl (.notKey _ _ _ _ hk')
      · rintro (h | ⟨xs, z, h, _⟩)
        · cases h with
          | notKey => rfl
          | scalar _ _ _ _ h => exact absurd rfl (h _ _ _)
        · cases h
  | .arr xs =>
    simp only [atLastParam, anyToInt_eq]
    cases hz : intOf p with
    | none =>
      simp only
      constructor
      · intro h; cases h; exact .inl (unfit_arr hz)
      · rintro (h | ⟨xs, z, _, _, h, _⟩)
        · rw [(unfit_arr_inv h).2]
        · cases h
    | some z =>
      have hnu : ¬ Unfit (.arr xs) p e := fun h => by rw [(unfit_arr_inv h).1] at hz; cases hz
      simp only [setAtIndex_eq]
      by_cases hl : z = xs.length
      · rw [if_pos hl]
        constructor
        · intro h; cases h
        · rintro (h | ⟨ys, z', h1, _, h2, _, h3⟩)
          · exact absurd h hnu
          · cases h1; cases h2; exact absurd hl h3
      · rw [if_neg hl]
        cases hi : index xs.length z with
        | none =>
          constructor
          · intro h; cases h; exact .inr ⟨xs, z, rfl, rfl, rfl, hi, hl⟩
          · rintro (h | ⟨ys, z', h1, h2, _⟩)
            · exact absurd h hnu
            · rw [h2]
        | some i =>
          constructor
          · intro h; cases h
          · rintro (h | ⟨ys, z', h1, _, h2, h3, _⟩)
            · exact absurd h hnu
            · cases h1; cases h2; rw [hi] at h3; cases h3
  | .nilp => exact absurd rfl hs.1
  | .notExist => exact absurd rfl hs.2
  | .str _ | .num _ _ | .bool _ | .null =>
    constructor
    · intro h; cases h; exact .inl (.scalar _ _ (by simp) (by simp) (by simp))
    · rintro (h | ⟨xs, z, h, _⟩)
      · cases h; rfl
      · cases h

theorem setAt_err_iff (E : Env) (c : V) (hc : c.uninit = false) (e : Err) : ∀ (ps : List Param) (v : V), ps ≠ [] → Plain ps →
    ((setAt E v c ps).2 = .err e ↔ SetFails v ps e)
  | [], _, h, _ => absurd rfl h
  | [p], v, _, hp => by
    rw [setAt_one, setAt1_plain _ _ _ _ (plain_tail hp).1]
    by_cases hv : v.uninit = true
    · rw [if_pos (by simp [hv])]
      constructor
      · intro h; cases h; exact .uninit _ _ _ (by rw [solid_uninit]; simp [hv])
      · intro h
        cases h with
        | uninit => rfl
        | unfit _ _ _ _ h1 h2 => cases h2 <;> simp_all [V.uninit]
        | range => simp [V.uninit] at hv
    · rw [if_neg (by simp [hv, hc])]
      exact atLast_err_iff E v c p e (by simpa using hv)
  | p :: q :: qs, v, _, hp => by
    obtain ⟨hp1, hp2⟩ := plain_tail hp
    by_cases hv : v.uninit = true
    · rw [setAt_cons_uninit _ _ _ _ _ _ hp1 (by simp [hv])]
      constructor
      · intro h; cases h; exact .uninit _ _ _ (by rw [solid_uninit]; simp [hv])
      · intro h
        cases h with
        | uninit => rfl
        | unfit _ _ _ _ h1 h2 => cases h2 <;> simp_all [V.uninit]
        | make _ _ _ _ _ _ h1 => cases h1 <;> simp [V.uninit] at hv
        | there _ _ _ _ _ _ h1 => cases h1 <;> simp [V.uninit] at hv
    · have hv' : v.uninit = false := by simpa using hv
      have hs : Solid v := solid_uninit.2 hv'
      have key : SetFails v (p :: q :: qs) e ↔ Unfit v p e ∨ ((∃ e', Missing v p e') ∧ MakeFails (q :: qs) e) ∨ ∃ d, Reach1 v p d ∧ SetFails d (q :: qs) e := by
        constructor
        · intro h
          cases h with
          | uninit _ _ _ h => exact absurd hs h
          | unfit _ _ _ _ _ h => exact .inl h
          | make _ _ _ _ _ e' h1 h2 => exact .inr (.inl ⟨⟨e', h1⟩, h2⟩)
          | there _ _ d _ _ _ h1 h2 => exact .inr (.inr ⟨d, h1, h2⟩)
        · rintro (h | ⟨⟨e', h1⟩, h2⟩ | ⟨d, h1, h2⟩)
          · exact .unfit _ _ _ _ hs.2 h
          · exact .make _ _ _ _ _ _ h1 h2
          · exact .there _ _ _ _ _ _ h1 h2
      rw [key, setAt_cons E v c p q qs hp1 hv' hc]
      have fresh := make_iff E c hc e q qs hp2
      match v with
      | .obj n kvs low =>
        by_cases hk : ∃ k, p = .str k
        · obtain ⟨k, rfl⟩ := hk
          have hnu : ¬ Unfit (.obj n kvs low) (.str k) e := fun h => by
            cases h with
            | notKey _ _ _ _ h => exact h k rfl
            | scalar _ _ _ _ h => exact h _ _ _ rfl
          simp only
          cases hch : (V.obj n kvs low).child (.key k) with
          | some d =>
            simp only
            have ih := setAt_err_iff E c hc e (q :: qs) d (by simp) hp2
            constructor
            · intro h
              refine .inr (.inr ⟨d, .key _ _ _ _ _ hch, ih.1 ?_⟩)
              revert h
              cases (setAt E d c (q :: qs)).2 <;> simp
            · rintro (h | ⟨⟨e', h1⟩, h2⟩ | ⟨d', h1, h2⟩)
              · exact absurd h hnu
              · cases h1 with | key _ _ _ _ h1 => rw [hch] at h1; cases h1
              · cases h1 with | key _ _ _ _ _ h1 => rw [hch] at h1; cases h1; rw [ih.2 h2]; rfl
          | none =>
            simp only
            have : ((match freshFor q with
              | some d => (match (setAt E d c (q :: qs)).2 with
                | .ok l => (setKey E n kvs low k (setAt E d c (q :: qs)).1, R.ok (Step.key k :: l))
                | .err e => (V.obj n kvs low, .err e)
                | .panic => (V.obj n kvs low, .panic)
                | .diverge => (V.obj n kvs low, .diverge))
              | none => (V.obj n kvs low, if (intOf q).isSome then .err .outOfRange else .err .other)).2 = R.err e) ↔ MakeFails (q :: qs) e := by
              rw [fresh]
              cases hr : freshFor q with
              | none => rfl
              | some d' => simp only; cases hs : (setAt E d' c (q :: qs)).2 <;> simp
            refine Iff.trans this ?_
            constructor
            · intro h; exact .inr (.inl ⟨⟨_, .key _ _ _ _ hch⟩, h⟩)
            · rintro (h | ⟨_, h2⟩ | ⟨d', h1, h2⟩)
              · exact absurd h hnu
              · exact h2
              · cases h1 with | key _ _ _ _ _ h1 => rw [hch] at h1; cases h1
        · have hk' : ∀ k, p ≠ .str k := fun k h => hk ⟨k, h⟩
          have hu : Unfit (.obj n kvs low) p .parameterError := .notKey _ _ _ _ hk'
          refine Iff.trans (b := (.parameterError : Err) = e) ?_ ?_
          · cases p <;> first | exact absurd rfl (hk' _) | simp
          · constructor
            · rintro rfl; exact .inl hu
            · rintro (h | ⟨⟨e', h1⟩, h2⟩ | ⟨d', h1, h2⟩)
              · cases h with
                | notKey => rfl
                | scalar _ _ _ _ h => exact absurd rfl (h _ _ _)
              · cases h1; exact absurd rfl (hk' _)
              · cases h1; exact absurd rfl (hk' _)
      | .arr xs =>
        cases hz : intOf p with
        | none =>
          simp only
          constructor
          · intro h; cases h; exact .inl (unfit_arr hz)
          · rintro (h | ⟨⟨e', h1⟩, h2⟩ | ⟨d', h1, h2⟩)
            · rw [(unfit_arr_inv h).2]
            · cases h1 with | idx _ _ z h1 => rw [hz] at h1; cases h1
            · cases h1 with | idx _ _ z _ _ h1 => rw [hz] at h1; cases h1
        | some z =>
          have hnu : ¬ Unfit (.arr xs) p e := fun h => by rw [(unfit_arr_inv h).1] at hz; cases hz
          simp only
          cases hi : index xs.length z with
          | some i =>
            simp only
            have hlt := index_lt hi
            have hch : (V.arr xs).child (.idx i) = some xs[i] := by rw [child_idx, List.getElem?_eq_getElem hlt]
            rw [hch]
            simp only
            have ih := setAt_err_iff E c hc e (q :: qs) xs[i] (by simp) hp2
            constructor
            · intro h
              refine .inr (.inr ⟨xs[i], .idx _ _ _ _ _ hz hi hch, ih.1 ?_⟩)
              revert h
              cases (setAt E xs[i] c (q :: qs)).2 <;> simp
            · rintro (h | ⟨⟨e', h1⟩, h2⟩ | ⟨d', h1, h2⟩)
              · exact absurd h hnu
              · cases h1 with | idx _ _ z' h1 h3 => rw [hz] at h1; cases h1; rw [hi] at h3; cases h3
              · cases h1 with | idx _ _ z' i' _ h1 h3 h4 => rw [hz] at h1; cases h1; rw [hi] at h3; cases h3; rw [hch] at h4; cases h4; rw [ih.2 h2]; rfl
          | none =>
            simp only
            have : ((match freshFor q with
              | some d => (match (setAt E d c (q :: qs)).2 with
                | .ok l => (V.arr (xs ++ [(setAt E d c (q :: qs)).1]), R.ok (Step.idx xs.length :: l))
                | .err e => (V.arr xs, .err e)
                | .panic => (V.arr xs, .panic)
                | .diverge => (V.arr xs, .diverge))
              | none => (V.arr xs, if (intOf q).isSome then .err .outOfRange else .err .other)).2 = R.err e) ↔ MakeFails (q :: qs) e := by
              rw [fresh]
              cases hr : freshFor q with
              | none => rfl
              | some d' => simp only; cases hs : (setAt E d' c (q :: qs)).2 <;> simp
            refine Iff.trans this ?_
            constructor
            · intro h; exact .inr (.inl ⟨⟨_, .idx _ _ _ hz hi⟩, h⟩)
            · rintro (h | ⟨_, h2⟩ | ⟨d', h1, h2⟩)
              · exact absurd h hnu
              · exact h2
              · cases h1 with | idx _ _ z' i' _ h1 h3 h4 => rw [hz] at h1; cases h1; rw [hi] at h3; cases h3
      | .nilp => exact absurd rfl hs.1
      | .notExist => exact absurd rfl hs.2
      | .str _ | .num _ _ | .bool _ | .null =>
        constructor
        · intro h; cases h; exact .inl (.scalar _ _ (by simp) (by simp) (by simp))
        · rintro (h | ⟨⟨e', h1⟩, h2⟩ | ⟨d', h1, h2⟩)
          · cases h; rfl
          · cases h1
          · cases h1

theorem locArray_err_iff (E : Env) (v : V) (ps : List Param) (e : Err) (hne : ps ≠ []) (hp : Plain ps) : locArray E v ps = .err e ↔ ArrayFails v ps e := by
  have key : ArrayFails v ps e ↔ GetFails v ps e ∨ e = .typeNotMatch ∧ ∃ l c, Addr v ps l ∧ v.at l = some c ∧ c ≠ .nilp ∧ ∀ xs, c ≠ .arr xs := by
    constructor
    · intro h
      cases h with
      | path _ h => exact .inl h
      | type l c h1 h2 h3 h4 => exact .inr ⟨rfl, l, c, h1, h2, h3, h4⟩
    · rintro (h | ⟨rfl, l, c, h1, h2, h3, h4⟩)
      · exact .path _ _ _ h
      · exact .type _ _ _ _ h1 h2 h3 h4
  rw [key, ← resolve_err_iff E e ps v hne hp]
  unfold locArray
  rcases resolve_cases E ps v with ⟨l, h⟩ | ⟨e', h⟩ | ⟨h, _⟩
  · have ha := (resolve_iff E v ps l).1 h
    obtain ⟨c, hc⟩ := addr_at ha
    rw [h]
    simp only [hc]
    have hx : ∀ {x : V}, (e = .typeNotMatch ∧ ∃ l c, Addr v ps l ∧ v.at l = some c ∧ c ≠ .nilp ∧ ∀ xs, c ≠ .arr xs) → v.at l = some x → x ≠ .nilp ∧ ∀ xs, x ≠ .arr xs := by
      rintro x ⟨_, m, b, h1, h2, h3⟩ hx
      cases addr_det ha h1
      rw [hx] at h2; cases h2; exact h3
    cases c with
    | nilp => simp only; exact ⟨fun h => (nomatch h), fun h => h.elim (fun h => (nomatch h)) fun h => absurd rfl (hx h hc).1⟩
    | arr xs => simp only; exact ⟨fun h => (nomatch h), fun h => h.elim (fun h => (nomatch h)) fun h => absurd rfl ((hx h hc).2 xs)⟩
    | _ =>
      simp only
      exact ⟨fun h => by cases h; exact .inr ⟨rfl, l, _, ha, hc, by simp, by simp⟩, fun h => h.elim (fun h => (nomatch h)) fun h => by rw [h.1]⟩
  · rw [h]
    simp only
    constructor
    · intro h'; cases h'; exact .inl rfl
    · rintro (h' | ⟨_, m, b, h1, _⟩)
      · cases h'; rfl
      · rw [(resolve_iff E v ps m).2 h1] at h; cases h
  · rw [h]
    simp only
    constructor
    · intro h'; cases h'
    · rintro (h' | ⟨_, m, b, h1, _⟩)
      · cases h'
      · rw [(resolve_iff E v ps m).2 h1] at h; cases h

theorem insertLast_arr_err (after : Bool) (xs : List V) (c : V) (p : Param) (e : Err) :
    (insertLast after (.arr xs) c p).2 = .err e ↔ Unfit (.arr xs) p e ∨ Missing (.arr xs) p e := by
  rw [insertLast_arr]
  cases hz : intOf p with
  | none =>
    simp only
    constructor
    · intro h; cases h; exact .inl (unfit_arr hz)
    · rintro (h | h)
      · rw [(unfit_arr_inv h).2]
      · cases h with | idx _ _ z h1 => rw [hz] at h1; cases h1
  | some z =>
    have hnu : ¬ Unfit (.arr xs) p e := fun h => by rw [(unfit_arr_inv h).1] at hz; cases hz
    simp only
    cases hi : index xs.length z with
    | none =>
      simp only
      constructor
      · intro h; cases h; exact .inr (.idx _ _ _ hz hi)
      · rintro (h | h)
        · exact absurd h hnu
        · cases h; rfl
    | some i =>
      simp only
      constructor
      · intro h; cases h
      · rintro (h | h)
        · exact absurd h hnu
        · cases h with | idx _ _ z' h1 h2 => rw [hz] at h1; cases h1; rw [hi] at h2; cases h2

theorem insert_err_iff (E : Env) (after : Bool) (v c : V) (ps : List Param) (e : Err) (hv : v ≠ .nilp) (hne : ps ≠ []) (hp : Plain ps) :
    (insertAt E after v c [] ps).2 = .err e ↔ InsertFails v ps e := by
  obtain ⟨pre, p, rfl⟩ : ∃ pre p, ps = pre ++ [p] := ⟨_, _, (List.dropLast_concat_getLast hne).symm⟩
  have hp2 : p.isSlice = false := hp p (by simp)
  rw [insertAt_pre, List.nil_append]
  match pre with
  | [] =>
    rw [insertAt_one, insertAt1_nonslice _ _ _ _ _ hp2]
    simp only [List.nil_append]
    match v with
    | .arr xs =>
      rw [insertLast_arr_err]
      constructor
      · exact .selfIndex _ _ _
      · intro h
        generalize hq : [p] = q at h
        cases h with
        | uninit _ _ h => exact absurd ⟨by simp, by simp⟩ h
        | self _ _ _ h => exact absurd rfl (h xs)
        | selfIndex _ _ _ h => cases hq; exact h
        | array _ _ _ _ _ _ h => simp at hq
        | index _ _ _ _ _ _ _ h => simp at hq
    | .nilp => exact absurd rfl hv
    | .notExist =>
      constructor
      · intro h; cases h; exact .uninit _ _ (fun h => h.2 rfl)
      · intro h
        generalize hq : [p] = q at h
        cases h with
        | uninit _ _ h => rfl
        | self _ _ h => exact absurd rfl h.2
        | array _ _ _ _ _ h => exact absurd rfl h.2
        | index _ _ _ _ _ _ _ h => simp at hq
    | .str _ | .num _ _ | .bool _ | .null | .obj _ _ _ =>
      constructor
      · intro h; cases h; exact .self _ _ ⟨by simp, by simp⟩ (by simp)
      · intro h
        generalize hq : [p] = q at h
        cases h with
        | uninit _ _ h => exact absurd ⟨by simp, by simp⟩ h
        | self _ _ h => rfl
        | array _ _ _ _ _ _ h => simp at hq
        | index _ _ _ _ _ _ _ h => simp at hq
  | a :: pre =>
    have hp1 : Plain (a :: pre) := fun q hq => hp q (List.mem_append_left _ hq)
    by_cases hx : v = .notExist
    · subst hx
      rw [insertAt_last, if_neg (by simp [hp1 a (by simp)])]
      constructor
      · intro h; cases h; exact .uninit _ _ (fun h => h.2 rfl)
      · intro h
        generalize hq : a :: pre ++ [p] = q at h
        cases h with
        | uninit _ _ h => rfl
        | self _ _ h => exact absurd rfl h.2
        | array _ _ _ _ _ h => exact absurd rfl h.2
        | index _ _ _ _ _ _ _ h => exact absurd rfl (addr_init h).2
    · have hs : Solid v := ⟨hv, hx⟩
      rw [insertAt_init E after c pre p (hp1 a (by simp)) hs]
      have key : InsertFails v (a :: pre ++ [p]) e ↔ ArrayFails v (a :: pre) e ∨ ∃ l xs, Addr v (a :: pre) l ∧ v.at l = some (.arr xs) ∧ (Unfit (.arr xs) p e ∨ Missing (.arr xs) p e) := by
        constructor
        · intro h
          generalize hq : a :: pre ++ [p] = q at h
          cases h with
          | uninit _ _ h => exact absurd hs h
          | self _ _ h => simp at hq
          | selfIndex _ _ _ h => simp at hq
          | array _ _ _ _ _ _ h =>
            obtain ⟨h1, h2⟩ := List.append_inj' hq rfl
            cases h1; cases h2; exact .inl h
          | index _ _ _ _ _ l xs h h' h'' =>
            obtain ⟨h1, h2⟩ := List.append_inj' hq rfl
            cases h1; cases h2; exact .inr ⟨l, xs, h, h', h''⟩
        · rintro (h | ⟨l, xs, h, h', h''⟩)
          · exact .array _ _ _ _ _ hs h
          · exact .index _ _ _ _ _ _ _ h h' h''
      rw [key, ← locArray_err_iff E v _ e (by simp) hp1]
      rcases locArray_cases E v (a :: pre) with ⟨l, h⟩ | ⟨e', h⟩ | ⟨h, _⟩
      · obtain ⟨ha, xs, hx⟩ := locArray_ok.1 h
        rw [h]
        simp only
        rw [modify_eq _ hx, insertAt1_nonslice _ _ _ _ _ hp2]
        simp only [prefixLoc]
        have := insertLast_arr_err after xs c p e
        constructor
        · intro h'
          refine .inr ⟨l, xs, ha, hx, this.1 ?_⟩
          revert h'
          cases (insertLast after (.arr xs) c p).2 <;> simp
        · rintro (h' | ⟨m, ys, h1, h2, h3⟩)
          · cases h'
          · cases addr_det ha h1
            rw [hx] at h2; cases h2
            rw [this.2 h3]; rfl
      · rw [h]
        simp only
        constructor
        · intro h'; cases h'; exact .inl rfl
        · rintro (h' | ⟨m, ys, h1, h2, h3⟩)
          · cases h'; rfl
          · rw [locArray_ok.2 ⟨h1, ys, h2⟩] at h; cases h
      · rw [h]
        simp only
        constructor
        · intro h'; cases h'
        · rintro (h' | ⟨m, ys, h1, h2, h3⟩)
          · cases h'
          · rw [locArray_ok.2 ⟨h1, ys, h2⟩] at h; cases h

theorem setAt_array (E : Env) {v v' : V} {ps : List Param} {l : List Step} (h : setAt E v newArray ps = (v', .ok l)) : v'.at l = some newArray := by
  rcases setAt_spec E newArray ps v with rfl | ⟨m, h1, h2⟩ | ⟨e, h1⟩
  · unfold setAt at h; cases h
  · rw [h] at h1 h2; cases h1; exact setsTo_at h2
  · rw [h] at h1; cases h1

theorem append_err_iff (E : Env) (beg : Bool) (v c : V) (ps : List Param) (e : Err) (hv : v ≠ .nilp) (hp : Plain ps) :
    (appendAt E beg v c ps).2 = .err e ↔ AppendFails v ps e := by
  by_cases hx : v = .notExist
  · subst hx
    have : (appendAt E beg .notExist c ps).2 = .err .valueUninitialized := by
      cases ps <;> (unfold appendAt; rfl)
    rw [this]
    constructor
    · intro h; cases h; exact .uninit _ _ (fun h => h.2 rfl)
    · intro h
      cases h with
      | uninit _ h => rfl
      | self h => exact absurd rfl h.2
      | array _ _ _ h => exact absurd rfl h.2
      | make _ _ _ h => exact absurd rfl h.2
  · have hs : Solid v := ⟨hv, hx⟩
    match ps with
    | [] =>
      by_cases hxs : ∃ xs, v = .arr xs
      · obtain ⟨xs, rfl⟩ := hxs
        have : ∃ r, (appendAt E beg (.arr xs) c []).2 = .ok r := by
          unfold appendAt
          simp only
          rw [appendTo_arr]
          split <;> exact ⟨_, rfl⟩
        obtain ⟨r, hr⟩ := this
        rw [hr]
        constructor
        · intro h; cases h
        · intro h
          cases h with
          | uninit _ h => exact absurd hs h
          | self _ h => exact absurd rfl (h xs)
      · have : (appendAt E beg v c []).2 = .err .notArrayValue := by
          unfold appendAt
          cases v <;> first | rfl | exact absurd rfl hv | exact absurd rfl hx | exact absurd ⟨_, rfl⟩ hxs
        rw [this]
        constructor
        · intro h; cases h; exact .self _ hs (fun xs h => hxs ⟨xs, h⟩)
        · intro h
          cases h with
          | uninit _ h => exact absurd hs h
          | self _ h => rfl
    | p :: ps =>
      rw [appendAt_cons _ _ _ _ _ _ hv hx, if_neg (by simp [hp p (by simp)]), if_neg (by simp [hp p (by simp)])]
      have key : AppendFails v (p :: ps) e ↔ (ArrayFails v (p :: ps) e ∧ e ≠ .notFound) ∨ (GetFails v (p :: ps) .notFound ∧ SetFails v (p :: ps) e) := by
        constructor
        · intro h
          cases h with
          | uninit _ h => exact absurd hs h
          | array _ _ _ _ h h' => exact .inl ⟨h, h'⟩
          | make _ _ _ _ h h' => exact .inr ⟨h, h'⟩
        · rintro (⟨h, h'⟩ | ⟨h, h'⟩)
          · exact .array _ _ _ _ hs h h'
          · exact .make _ _ _ _ hs h h'
      have hnf : GetFails v (p :: ps) .notFound ↔ locArray E v (p :: ps) = .err .notFound := by
        rw [locArray_err_iff E v _ _ (by simp) hp]
        constructor
        · exact .path _ _ _
        · intro h; cases h; assumption
      rw [key, ← locArray_err_iff E v _ e (by simp) hp, hnf, ← setAt_err_iff E newArray rfl e _ v (by simp) hp]
      unfold appendPath
      rcases locArray_cases E v (p :: ps) with ⟨l, h⟩ | ⟨e', h⟩ | ⟨h, _⟩
      · obtain ⟨_, xs, hx⟩ := locArray_ok.1 h
        rw [h]
        simp only
        rw [modify_eq _ hx, appendTo_arr]
        cases beg <;> simp [prefixLoc]
      · rw [h]
        by_cases he : e' = .notFound
        · subst he
          simp only
          cases hst : setAt E v newArray (p :: ps) with
          | mk v' r =>
            cases r with
            | ok l =>
              simp only
              have := (show v'.at l = some newArray from setAt_array E hst)
              rw [modify_eq _ this]
              cases beg <;> simp [prefixLoc, newArray, appendTo_arr] <;> exact fun h => h.symm
            | err e'' => simp; rintro rfl h; exact absurd rfl h
            | panic => simp; exact fun h => h.symm
            | diverge => simp; exact fun h => h.symm
        · have : ∀ {r : V × R (List Step)} {f : V × R (List Step)}, (match (R.err e' : R (List Step)) with | .ok l => f | .err .notFound => r | .err e => (v, .err e) | .panic => (v, .panic) | .diverge => (v, .diverge)) = (v, R.err e') := by
            intro r f; cases e' <;> first | rfl | exact absurd rfl he
          constructor
          · intro h'
            refine .inl ⟨?_, ?_⟩
            · cases e' <;> first | exact absurd rfl he | (simp at h'; simp [h'])
            · cases e' <;> first | exact absurd rfl he | (simp at h'; subst h'; simp)
          · rintro (⟨h1, h2⟩ | ⟨h1, h2⟩)
            · cases h1
              cases e <;> first | exact absurd rfl he | rfl
            · cases h1; exact absurd rfl he
      · rw [h]; simp

end JV
