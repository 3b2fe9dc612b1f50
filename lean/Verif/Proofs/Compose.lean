import Verif.Proofs.Hered
import Verif.Proofs.SetMore
import Verif.Props.Modify
/-! Paths in two parts. -/
namespace JV
open Spec

/-- a computation of a location, below another location -/
def below (l : List Step) (r : R (List Step)) : R (List Step) := do
  let m ← r
  pure (l ++ m)

theorem below_ok {l m : List Step} {r : R (List Step)} : below l r = .ok m ↔ ∃ m', r = .ok m' ∧ m = l ++ m' := by
  cases r with
  | ok x => simp [below, eq_comm]
  | err e => exact ⟨fun h => (nomatch h), fun ⟨_, h, _⟩ => (nomatch h)⟩
  | panic => exact ⟨fun h => (nomatch h), fun ⟨_, h, _⟩ => (nomatch h)⟩
  | diverge => exact ⟨fun h => (nomatch h), fun ⟨_, h, _⟩ => (nomatch h)⟩

theorem resolve_step {E : Env} {v c : V} {p q : Param} {qs : List Param} {s : Step} (hp : p.isSlice = false) (hl : locate E false v p = (v, .ok s))
    (hc : v.child s = some c) : (resolve E false v (p :: q :: qs)).2 = below [s] (resolve E false c (q :: qs)).2 := by
  conv => lhs; unfold resolve
  rw [if_neg (by simp), if_neg (by simp [hp]), hl]
  simp only [hc]
  rfl

theorem below_below (l m : List Step) (r : R (List Step)) : below l (below m r) = below (l ++ m) r := by
  cases r <;> simp [below]

/-- a path that goes on where another one ends -/
theorem resolve_pre (E : Env) {v : V} {pre : List Param} {l : List Step} (h : Addr v pre l) (hp : Plain pre) {a : V} (ha : v.at l = some a) (q : Param)
    (qs : List Param) : (resolve E false v (pre ++ q :: qs)).2 = below l (resolve E false a (q :: qs)).2 := by
  induction h with
  | slice v q qs l _ _ => exact absurd (hp (.slice (q :: qs)) (by simp)) (by simp [Param.isSlice])
  | key n kvs low k c h =>
    simp only [V.at, h, Option.some.injEq] at ha
    subst ha
    exact resolve_step rfl (locate_key h) h
  | idx xs p z i h1 h2 =>
    have hps : p.isSlice = false := hp p (by simp)
    cases hc : (V.arr xs).child (.idx i) with
    | none => simp [V.at, hc] at ha
    | some c =>
      simp only [V.at, hc, Option.some.injEq] at ha
      subst ha
      exact resolve_step hps (locate_idx h1 h2) hc
  | keyCons n kvs low k c r rs l h1 _ ih =>
    simp only [V.at, h1] at ha
    have := ih (fun p hp' => hp p (.tail _ hp')) ha
    rw [List.cons_append, List.cons_append, resolve_step rfl (locate_key h1) h1, ← List.cons_append, this, below_below]
    rfl
  | idxCons xs p z i c r rs l h1 h2 h3 _ ih =>
    have hps : p.isSlice = false := hp p (by simp)
    simp only [V.at, h3] at ha
    have := ih (fun p hp' => hp p (.tail _ hp')) ha
    rw [List.cons_append, List.cons_append, resolve_step hps (locate_idx h1 h2) h3, ← List.cons_append, this, below_below]
    rfl

theorem plain_nil {v : V} {l : List Step} : ¬ Addr v [] l := fun h => nomatch h

theorem addr_pre (E : Env) {v : V} {pre : List Param} {l : List Step} (h : Addr v pre l) (hp : Plain pre) {a : V} (ha : v.at l = some a) (q : Param)
    (qs : List Param) (m : List Step) : Addr v (pre ++ q :: qs) m ↔ ∃ m', Addr a (q :: qs) m' ∧ m = l ++ m' := by
  rw [← resolve_iff E, resolve_pre E h hp ha, below_ok]
  simp only [resolve_iff]

/-- Get on the path in two parts; the errors are the same too -/
theorem get_pre (E : Env) {v a : V} {pre : List Param} (h : get E v pre = .ok a) (hp : Plain pre) (q : Param) (qs : List Param) :
    get E v (pre ++ q :: qs) = get E a (q :: qs) := by
  obtain ⟨l, hl, ha⟩ := (get_iff E v pre a).1 h
  unfold get getC
  simp only [resolve_plain, resolve_pre E hl hp ha q qs]
  cases hr : (resolve E false a (q :: qs)).2 with
  | ok m => simp [below, fetch, at_append, ha]
  | err e => rfl
  | panic => rfl
  | diverge => rfl

theorem locate_err_cons {E : Env} {v : V} {p q : Param} {qs : List Param} {e : Err} (hp : p.isSlice = false) (h : (locate E false v p).2 = .err e) :
    (resolve E false v (p :: q :: qs)).2 = .err e := by
  conv => lhs; unfold resolve
  rw [if_neg (by simp), if_neg (by simp [hp])]
  cases hl : locate E false v p with
  | mk v' r => rw [hl] at h; simp only at h; subst h; rfl

theorem resolve_pre_err (E : Env) (q : Param) (qs : List Param) (e : Err) : ∀ (pre : List Param) (v : V), Plain pre → (resolve E false v pre).2 = .err e →
    (resolve E false v (pre ++ q :: qs)).2 = .err e
  | [], v, _, h => by simp [resolve] at h
  | [p], v, hp, h => by
    have hps : p.isSlice = false := hp p (by simp)
    rw [resolve_one, resolve1_nonslice _ _ _ _ hps] at h
    refine locate_err_cons hps ?_
    cases hl : (locate E false v p).2 with
    | ok s => rw [hl] at h; cases h
    | err e' => rw [hl] at h; cases h; rfl
    | panic => rw [hl] at h; cases h
    | diverge => rw [hl] at h; cases h
  | p :: p' :: ps, v, hp, h => by
    have hps : p.isSlice = false := hp p (by simp)
    rcases locate_cases E v p with ⟨s, hl⟩ | ⟨e', hl⟩ | ⟨hl, -⟩
    · have hv : locate E false v p = (v, .ok s) := by
        have h1 := resolve_plain E [p] v
        rw [resolve_one, resolve1_nonslice _ _ _ _ hps] at h1
        exact Prod.ext h1 hl
      cases hc : v.child s with
      | none =>
        exfalso
        conv at h => lhs; unfold resolve
        rw [if_neg (by simp), if_neg (by simp [hps]), hv] at h
        simp [hc] at h
      | some c =>
        rw [resolve_step hps hv hc] at h
        rw [List.cons_append, List.cons_append, resolve_step hps hv hc, ← List.cons_append, resolve_pre_err E q qs e (p' :: ps) c (fun x hx => hp x (.tail _ hx)) ?_]
        · rfl
        · cases hr : (resolve E false c (p' :: ps)).2 with
          | ok s => rw [hr] at h; cases h
          | err e' => rw [hr] at h; exact h
          | panic => rw [hr] at h; cases h
          | diverge => rw [hr] at h; cases h
    · rw [locate_err_cons hps hl] at h
      rw [List.cons_append, List.cons_append, locate_err_cons hps hl, h]
    · exfalso
      conv at h => lhs; unfold resolve
      rw [if_neg (by simp), if_neg (by simp [hps])] at h
      cases hl' : locate E false v p with
      | mk v' r => rw [hl'] at hl h; simp only at hl; subst hl; simp at h

theorem locArray_below (E : Env) {v : V} {pre : List Param} {l : List Step} (h : Addr v pre l) (hp : Plain pre) {a : V} (ha : v.at l = some a) (q : Param)
    (qs : List Param) : locArray E v (pre ++ q :: qs) = below l (locArray E a (q :: qs)) := by
  unfold locArray
  rw [resolve_pre E h hp ha]
  cases hr : (resolve E false a (q :: qs)).2 with
  | ok m =>
    simp only [below, R.bind_ok, R.pure_eq, at_append, ha, Option.bind_some]
    cases a.at m with
    | none => rfl
    | some b => cases b <;> rfl
  | err e => rfl
  | panic => rfl
  | diverge => rfl

/-- a change below `l`: the same as the change of the node at `l` -/
theorem modify_below {α : Type} {v a : V} {l m : List Step} (ha : v.at l = some a) (f : V → V × R α) {b : V} (hb : a.at m = some b) :
    v.modify f (l ++ m) = (replace v l (a.modify f m).1, (a.modify f m).2) := by
  rw [modify_eq f (by rw [at_append, ha]; exact hb), modify_eq f hb, replace_append _ m ha]

theorem delete_pre (E : Env) {v a : V} {pre : List Param} {l : List Step} (h : Addr v pre l) (hp : Plain pre) (ha : v.at l = some a) (q : Param) (qs : List Param)
    (hq : Plain (q :: qs)) : delete E false v (pre ++ q :: qs) = (replace v l (delete E false a (q :: qs)).1, (delete E false a (q :: qs)).2) := by
  obtain ⟨init, p, hi⟩ : ∃ init p, q :: qs = init ++ [p] := ⟨_, _, (List.dropLast_concat_getLast (List.cons_ne_nil q qs)).symm⟩
  obtain ⟨x, pre', rfl⟩ : ∃ x pre', pre = x :: pre' := by
    cases pre with
    | nil => exact absurd h plain_nil
    | cons x pre' => exact ⟨x, pre', rfl⟩
  have hx : x.isSlice = false := hp x (by simp)
  unfold delete
  rw [hi, ← List.append_assoc, deleteAt_pre, deleteAt_pre, List.nil_append, List.nil_append, List.cons_append, deleteAt_last', if_neg (by simp [hx]), resolve_plain]
  cases init with
  | nil =>
    rw [deleteAt_one, List.append_nil, addr_resolve h]
    simp only
    rw [modify_eq _ ha]
  | cons y init' =>
    have hy : y.isSlice = false := hq y (by rw [hi]; simp)
    rw [deleteAt_last', if_neg (by simp [hy]), resolve_plain, ← List.cons_append, resolve_pre E h hp ha]
    cases hr : (resolve E false a (y :: init')).2 with
    | ok m =>
      obtain ⟨b, hb⟩ := addr_at ((resolve_iff E a _ m).1 hr)
      simp only [below, R.bind_ok, R.pure_eq]
      exact modify_below ha _ hb
    | err e => simp [below, replace_same ha]
    | panic => simp [below, replace_same ha]
    | diverge => simp [below, replace_same ha]

theorem set_pre (E : Env) {v a : V} {pre : List Param} {l : List Step} (h : Addr v pre l) (hp : Plain pre) (ha : v.at l = some a) (q : Param) (qs : List Param)
    (hq : q.isSlice = false) (ch : Ch) : set E v ch (pre ++ q :: qs) = (replace v l (set E a ch (q :: qs)).1, below l (set E a ch (q :: qs)).2) := by
  unfold set
  cases hc : ch.err with
  | some e => simp [below, replace_same ha]
  | none =>
    simp only
    cases hu : ch.c.uninit with
    | false => exact setAt_pre E ch.c hu pre v a l q qs hp h ha
    | true =>
      have key : ∀ (w : V) (p : Param) (ps : List Param), p.isSlice = false → setAt E w ch.c (p :: ps) = (w, .err .valueUninitialized) := by
        intro w p ps hps
        conv => lhs; unfold setAt
        cases ps with
        | nil =>
          simp only
          cases p <;> simp [setAt1, hu] <;> simp [Param.isSlice] at hps
        | cons p' ps => simp [hps, hu]
      obtain ⟨x, pre', rfl⟩ : ∃ x pre', pre = x :: pre' := by
        cases pre with
        | nil => exact absurd h plain_nil
        | cons x pre' => exact ⟨x, pre', rfl⟩
      rw [key a q qs hq, List.cons_append, key v x _ (hp x (by simp))]
      simp [below, replace_same ha]

theorem putKey_twice (k : Bytes) (a b : V) : ∀ kvs : List Ent, putKey k b (putKey k a kvs) = putKey k b kvs
  | [] => rfl
  | e :: kvs => by
    have ih := putKey_twice k a b kvs
    by_cases h : e.key = k <;> simp_all [putKey]

theorem put_twice (v : V) (s : Step) (a b : V) : (v.put s a).put s b = v.put s b := by
  cases v with
  | obj n kvs low => cases s <;> simp [V.put, putKey_twice]
  | arr xs => cases s <;> simp [V.put]
  | _ => rfl

theorem replace_twice {v a : V} (w w' : V) : ∀ {l : List Step}, v.at l = some a → replace (replace v l w) l w' = replace v l w' := by
  intro l
  induction l generalizing v with
  | nil => intro _; rfl
  | cons s l ih =>
    intro h
    simp only [V.at] at h
    match hc : v.child s, h with
    | some d, h => simp only [replace, hc, child_put_self hc, put_twice, ih h]
    | none, h => simp at h

theorem addr_init {v : V} {pre : List Param} {l : List Step} (h : Addr v pre l) : v ≠ .nilp ∧ v ≠ .notExist := by
  have h' := addr_not_scalar h
  constructor <;> rintro rfl <;> simp at h'

theorem prefixLoc_below (l m : List Step) (x y : V) (r : R (List Step)) : prefixLoc (l ++ m) (x, r) = (x, below l (prefixLoc m (y, r)).2) := by
  cases r <;> simp [prefixLoc, below]

theorem appendPath_pre (E : Env) {v a : V} {pre : List Param} {l : List Step} (h : Addr v pre l) (hp : Plain pre) (ha : v.at l = some a) (q : Param) (qs : List Param)
    (beg : Bool) (c : V) :
    appendPath E beg v c (pre ++ q :: qs) = (replace v l (appendPath E beg a c (q :: qs)).1, below l (appendPath E beg a c (q :: qs)).2) := by
  unfold appendPath
  rw [locArray_below E h hp ha]
  cases hr : locArray E a (q :: qs) with
  | ok m =>
    obtain ⟨-, xs, hb⟩ := locArray_ok.1 hr
    simp only [below, R.bind_ok, R.pure_eq, modify_below ha _ hb]
    exact prefixLoc_below l m _ _ _
  | err e =>
    by_cases hn : e = .notFound
    · subst hn
      simp only [below]
      have hs := setAt_pre E newArray rfl pre v a l q qs hp h ha
      rcases setAt_spec E newArray (q :: qs) a with h' | ⟨m, h1, h2⟩ | ⟨e, h'⟩
      · cases h'
      · have hx := setsTo_at h2
        have hy : setAt E a newArray (q :: qs) = ((setAt E a newArray (q :: qs)).1, .ok m) := Prod.ext rfl h1
        rw [hy] at hs
        rw [show (R.err Err.notFound >>= fun m => pure (l ++ m)) = (R.err Err.notFound : R (List Step)) from rfl]
        simp only [R.bind_ok, R.pure_eq] at hs
        rw [hs, hy]
        simp only
        rw [modify_below (replace_at _ ha) _ hx, replace_twice _ _ ha]
        exact prefixLoc_below l m _ _ _
      · rw [h'] at hs
        rw [show (R.err Err.notFound >>= fun m => pure (l ++ m)) = (R.err Err.notFound : R (List Step)) from rfl]
        simp only [] at hs
        rw [hs, h']
        rfl
    · have hne : (below l (R.err e)) = R.err e := rfl
      rw [hne]
      cases e <;> first | exact absurd rfl hn | simp [below, replace_same ha]
  | panic => simp [below, replace_same ha]
  | diverge => simp [below, replace_same ha]

theorem append_pre (E : Env) {v a : V} {pre : List Param} {l : List Step} (h : Addr v pre l) (hp : Plain pre) (ha : v.at l = some a) (q : Param) (qs : List Param)
    (hq : q.isSlice = false) (hi : a.uninit = false) (beg : Bool) (ch : Ch) :
    append E beg v ch (pre ++ q :: qs) = (replace v l (append E beg a ch (q :: qs)).1, below l (append E beg a ch (q :: qs)).2) := by
  obtain ⟨x, pre', rfl⟩ : ∃ x pre', pre = x :: pre' := by
    cases pre with
    | nil => exact absurd h plain_nil
    | cons x pre' => exact ⟨x, pre', rfl⟩
  have hx : x.isSlice = false := hp x (by simp)
  have hv := addr_init h
  have hb : a ≠ .nilp ∧ a ≠ .notExist := by constructor <;> rintro rfl <;> simp [V.uninit] at hi
  unfold append
  rw [List.cons_append, appendAt_cons _ _ _ _ _ _ hv.1 hv.2, appendAt_cons _ _ _ _ _ _ hb.1 hb.2, hx, hq]
  simp only [Bool.false_and, Bool.false_eq_true, if_false]
  exact appendPath_pre E h hp ha q qs beg ch.c

theorem insertAt_init (E : Env) (after : Bool) {v : V} (c : V) {a : Param} (pre : List Param) (p : Param) (ha : a.isSlice = false) (hv : v ≠ .nilp ∧ v ≠ .notExist) :
    insertAt E after v c (a :: pre) [p] = match locArray E v (a :: pre) with
        | .ok l => prefixLoc l (v.modify (fun w => insertAt1 E after w c p) l)
        | .err e => (v, .err e)
        | .panic => (v, .panic)
        | .diverge => (v, .diverge) := by
  rw [insertAt_last, if_neg (by simp [ha])]
  split
  · exact absurd rfl hv.1
  · exact absurd rfl hv.2
  · rfl

theorem insert_pre (E : Env) {v a : V} {pre : List Param} {l : List Step} (h : Addr v pre l) (hp : Plain pre) (ha : v.at l = some a) (rest : List Param) (p : Param)
    (hq : Plain rest) (hi : a.uninit = false) (hr : rest = [] → ∃ xs, a = .arr xs) (after : Bool) (ch : Ch) :
    insert E after v ch (pre ++ (rest ++ [p])) = (replace v l (insert E after a ch (rest ++ [p])).1, below l (insert E after a ch (rest ++ [p])).2) := by
  obtain ⟨x, pre', rfl⟩ : ∃ x pre', pre = x :: pre' := by
    cases pre with
    | nil => exact absurd h plain_nil
    | cons x pre' => exact ⟨x, pre', rfl⟩
  have hx : x.isSlice = false := hp x (by simp)
  have hv := addr_init h
  have hb : a ≠ .nilp ∧ a ≠ .notExist := by constructor <;> rintro rfl <;> simp [V.uninit] at hi
  unfold insert
  cases ch.err with
  | some e => simp [below, replace_same ha]
  | none =>
    simp only
    rw [← List.append_assoc, insertAt_pre, insertAt_pre, List.nil_append, List.nil_append, List.cons_append, insertAt_init _ _ _ _ _ hx hv]
    cases rest with
    | nil =>
      obtain ⟨xs, rfl⟩ := hr rfl
      rw [insertAt_one, List.append_nil, locArray_ok.2 ⟨h, xs, ha⟩]
      simp only
      rw [modify_eq _ ha]
      rfl
    | cons y rest =>
      rw [insertAt_init _ _ _ _ _ (hq y (by simp)) hb, ← List.cons_append, locArray_below E h hp ha]
      cases hr : locArray E a (y :: rest) with
      | ok m =>
        obtain ⟨-, xs, hb⟩ := locArray_ok.1 hr
        simp only [below, R.bind_ok, R.pure_eq, modify_below ha _ hb]
        exact prefixLoc_below l m _ _ _
      | err e => simp [below, replace_same ha]
      | panic => simp [below, replace_same ha]
      | diverge => simp [below, replace_same ha]

theorem below_map (l : List Step) (r : R (List Step)) : below l r = (l ++ ·) <$> r := by
  cases r <;> rfl

theorem get_err_resolve {E : Env} {v : V} {ps : List Param} {e : Err} (h : get E v ps = .err e) : (resolve E false v ps).2 = .err e := by
  unfold get getC fetch at h
  match hr : (resolve E false v ps).2 with
  | .ok l => rw [hr] at h; obtain ⟨c, hc⟩ := addr_at ((resolve_iff E v _ l).1 hr); rw [resolve_plain] at h; simp [hc] at h
  | .err e => rw [hr] at h; simpa using h
  | .panic => rw [hr] at h; simp at h
  | .diverge => rw [hr] at h; simp at h

end JV
