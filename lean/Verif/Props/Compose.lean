import Verif.Proofs.Compose
import Verif.Proofs.Typed
/-! C67: a path may be walked in one call or in several. `v.Get(p…).Get(q…)` is `v.Get(p…, q…)`, and a modification through the value got at `p…`
is the modification of `v` with the longer path: `replace v l a'` is `v` after the value at `l` has been changed to `a'` through its pointer. -/
namespace JV
open Spec

/-- Get: for any remaining parameters, and whatever comes out -/
theorem C67_get (E : Env) (v a : V) (pre : List Param) (q : Param) (qs : List Param) (hp : Plain pre) (h : get E v pre = .ok a) :
    get E v (pre ++ q :: qs) = get E a (q :: qs) := get_pre E h hp q qs

/-- If the first part of the path cannot be followed, the whole path fails with the same error. -/
theorem C67_get_err (E : Env) (v : V) (pre : List Param) (q : Param) (qs : List Param) (e : Err) (hp : Plain pre) (h : get E v pre = .err e) :
    get E v (pre ++ q :: qs) = .err e := by
  have hr : (resolve E false v pre).2 = .err e := get_err_resolve h
  unfold get getC
  rw [resolve_pre_err E q qs e pre v hp hr]
  rfl

/-- The getters with a type: GetString, GetInt, GetBool, GetArray and so on, whatever the conversion is -/
theorem C67_typed (E : Env) {α : Type} (zero : α) (conv : V → Ret α) (v a : V) (pre : List Param) (q : Param) (qs : List Param) (hp : Plain pre)
    (h : get E v pre = .ok a) : typedGet E false zero conv v (pre ++ q :: qs) = typedGet E false zero conv a (q :: qs) := by
  have := get_pre E h hp q qs
  unfold get at this
  unfold typedGet
  rw [this]

/-- MustGet may be chained without looking at the values in between: a missing value gives a missing value -/
theorem C67_must_get (E : Env) (v a : V) (pre : List Param) (q : Param) (qs : List Param) (hp : Plain pre) (h : mustGet E v pre = .ok a) :
    mustGet E v (pre ++ q :: qs) = mustGet E a (q :: qs) := by
  unfold mustGet at h
  match hg : get E v pre, h with
  | .ok b, h => cases h; unfold mustGet; rw [C67_get E v a pre q qs hp hg]
  | .err e, h =>
    cases h
    unfold mustGet
    rw [C67_get_err E v pre q qs e hp hg]
    have hn : NoNil .notExist := by
      intro l hl
      cases l with
      | nil => simp [V.at] at hl
      | cons s l => simp [V.at, V.child] at hl
    rcases getC_cases E false .notExist (q :: qs) (by simp) hn with ⟨l, c, d, h1, -, -, -⟩ | ⟨e', h1⟩
    · have h2 := (get_iff E .notExist (q :: qs) c).1 h1
      obtain ⟨m, hm, -⟩ := h2
      exact absurd rfl (addr_init hm).2
    · unfold get; rw [h1]

/-- Set, also where it creates arrays and objects on the way or fails -/
theorem C67_set (E : Env) (v a : V) (pre : List Param) (l : List Step) (q : Param) (qs : List Param) (ch : Ch) (hp : Plain pre) (hq : q.isSlice = false)
    (hl : Addr v pre l) (ha : v.at l = some a) : ∃ a' r, set E a ch (q :: qs) = (a', r) ∧
      set E v ch (pre ++ q :: qs) = (replace v l a', (l ++ ·) <$> r) :=
  ⟨_, _, (Prod.eta _).symm, by rw [set_pre E hl hp ha q qs hq ch, below_map]⟩

/-- Delete -/
theorem C67_delete (E : Env) (v a : V) (pre : List Param) (l : List Step) (q : Param) (qs : List Param) (hp : Plain pre) (hq : Plain (q :: qs))
    (hl : Addr v pre l) (ha : v.at l = some a) : ∃ a' r, delete E false a (q :: qs) = (a', r) ∧ delete E false v (pre ++ q :: qs) = (replace v l a', r) :=
  ⟨_, _, rfl, delete_pre E hl hp ha q qs hq⟩

/-- Append at the beginning or the end of an array below `a`, also where it creates the array; `a` is not nil or a missing value. -/
theorem C67_append (E : Env) (v a : V) (pre : List Param) (l : List Step) (q : Param) (qs : List Param) (beg : Bool) (ch : Ch) (hp : Plain pre) (hq : q.isSlice = false)
    (hi : a.uninit = false) (hl : Addr v pre l) (ha : v.at l = some a) : ∃ a' r, append E beg a ch (q :: qs) = (a', r) ∧
      append E beg v ch (pre ++ q :: qs) = (replace v l a', (l ++ ·) <$> r) :=
  ⟨_, _, (Prod.eta _).symm, by rw [append_pre E hl hp ha q qs hq hi beg ch, below_map]⟩

/-- Append without further parameters: to the array itself -/
theorem C67_append_here (E : Env) (v : V) (xs : List V) (pre : List Param) (l : List Step) (beg : Bool) (ch : Ch) (hp : Plain pre)
    (hl : Addr v pre l) (ha : v.at l = some (.arr xs)) : ∃ a' r, append E beg (.arr xs) ch [] = (a', r) ∧
      append E beg v ch pre = (replace v l a', (l ++ ·) <$> r) := by
  refine ⟨_, _, rfl, ?_⟩
  obtain ⟨x, pre', rfl⟩ : ∃ x pre', pre = x :: pre' := by
    cases pre with
    | nil => exact absurd hl plain_nil
    | cons x pre' => exact ⟨x, pre', rfl⟩
  have hx : x.isSlice = false := hp x (by simp)
  have hv := addr_init hl
  unfold append
  rw [appendAt_cons _ _ _ _ _ _ hv.1 hv.2]
  simp only [hx, Bool.false_and, Bool.false_eq_true, if_false, appendPath]
  rw [locArray_ok.2 ⟨hl, xs, ha⟩]
  simp only
  rw [modify_eq _ ha, ← below_map]
  rfl

/-- Insert before or after an index of `a`, or of an array below `a` -/
theorem C67_insert (E : Env) (v a : V) (pre : List Param) (l : List Step) (rest : List Param) (p : Param) (after : Bool) (ch : Ch) (hp : Plain pre) (hr : Plain rest)
    (hi : a.uninit = false) (hx : rest = [] → ∃ xs, a = .arr xs) (hl : Addr v pre l) (ha : v.at l = some a) :
    ∃ a' r, insert E after a ch (rest ++ [p]) = (a', r) ∧ insert E after v ch (pre ++ (rest ++ [p])) = (replace v l a', (l ++ ·) <$> r) :=
  ⟨_, _, (Prod.eta _).symm, by rw [insert_pre E hl hp ha rest p hr hi hx after ch, below_map]⟩

/-- If `a` is something else than an array, both calls fail and change nothing. (With different errors: see the example.) -/
theorem C67_insert_not_array (E : Env) (v a : V) (pre : List Param) (l : List Step) (p : Param) (after : Bool) (ch : Ch) (hp : Plain pre) (hs : p.isSlice = false)
    (hn : a ≠ .nilp) (hx : ∀ xs, a ≠ .arr xs) (hl : Addr v pre l) (ha : v.at l = some a) :
    (∃ e, insert E after a ch [p] = (a, .err e)) ∧ ∃ e, insert E after v ch (pre ++ [p]) = (v, .err e) := by
  obtain ⟨x, pre', rfl⟩ : ∃ x pre', pre = x :: pre' := by
    cases pre with
    | nil => exact absurd hl plain_nil
    | cons x pre' => exact ⟨x, pre', rfl⟩
  have hx' : x.isSlice = false := hp x (by simp)
  unfold insert
  cases ch.err with
  | some e => exact ⟨⟨_, rfl⟩, ⟨_, rfl⟩⟩
  | none =>
    simp only
    constructor
    · rw [insertAt_one, insertAt1_nonslice _ _ _ _ _ hs]
      cases a with
      | nilp => exact absurd rfl hn
      | arr xs => exact absurd rfl (hx xs)
      | _ => exact ⟨_, rfl⟩
    · rw [insertAt_pre, List.nil_append, insertAt_init _ _ _ _ _ hx' (addr_init hl)]
      have : locArray E v (x :: pre') = .err .typeNotMatch := by
        unfold locArray
        rw [addr_resolve hl]
        simp only [ha]
      rw [this]
      exact ⟨_, rfl⟩

/-- If the first part of the path cannot be followed, Delete and Insert fail with the error of Get and change nothing. -/
theorem C67_missing (E : Env) (v : V) (pre : List Param) (q : Param) (qs : List Param) (e : Err) (after : Bool) (ch : Ch) (hp : Plain pre) (hc : ch.err = none)
    (hi : v.uninit = false) (h : get E v pre = .err e) :
    delete E false v (pre ++ q :: qs) = (v, .err e) ∧ insert E after v ch (pre ++ q :: qs) = (v, .err e) := by
  have hr : (resolve E false v pre).2 = .err e := get_err_resolve h
  obtain ⟨x, pre', rfl⟩ : ∃ x pre', pre = x :: pre' := by
    cases pre with
    | nil => simp [resolve] at hr
    | cons x pre' => exact ⟨x, pre', rfl⟩
  have hx : x.isSlice = false := hp x (by simp)
  have hb : v ≠ .nilp ∧ v ≠ .notExist := by constructor <;> rintro rfl <;> simp [V.uninit] at hi
  obtain ⟨init, p, hi⟩ : ∃ init p, q :: qs = init ++ [p] := ⟨_, _, (List.dropLast_concat_getLast (List.cons_ne_nil q qs)).symm⟩
  have hr' : (resolve E false v (x :: pre' ++ init)).2 = .err e := by
    cases init with
    | nil => rw [List.append_nil]; exact hr
    | cons y init => exact resolve_pre_err E y init e _ v hp hr
  unfold delete insert
  rw [hi, ← List.append_assoc, deleteAt_pre, List.nil_append, hc]
  simp only
  rw [insertAt_pre, List.nil_append]
  rw [List.cons_append] at hr' ⊢
  rw [deleteAt_last', if_neg (by simp [hx]), resolve_plain, hr', insertAt_init _ _ _ _ _ hx hb]
  unfold locArray
  rw [hr']
  exact ⟨rfl, rfl⟩

/-! the hypotheses are met -/
example : get sampleEnv sampleDoc [.str (asc "a")] = .ok (.arr [sampleNum "1", .obj 1 [⟨asc "b", 1, .null⟩] none]) ∧
    get sampleEnv sampleDoc [.str (asc "a"), .int 1, .str (asc "b")] = .ok .null ∧
    get sampleEnv sampleDoc [.str (asc "a"), .int 2] = .err .outOfRange ∧
    get sampleEnv sampleDoc [.str (asc "a"), .int 2, .str (asc "b")] = .err .outOfRange ∧
    mustGet sampleEnv sampleDoc [.str (asc "x")] = .ok .notExist := by decide +kernel
example : Plain [.str (asc "a")] ∧ Addr sampleDoc [.str (asc "a")] [.key (asc "a")] := ⟨by simp [Plain, Param.isSlice], .key _ _ _ _ _ rfl⟩
example : delete sampleEnv false sampleDoc [.str (asc "a"), .int 1, .str (asc "b")] =
    (.obj 2 [⟨asc "a", 1, .arr [sampleNum "1", .obj 1 [] none]⟩, ⟨asc "c", 2, .bool true⟩] none, .ok ()) := by decide +kernel
example : (set sampleEnv sampleDoc { c := .null } [.str (asc "a"), .int 1, .str (asc "x"), .int 0]).2 = .ok [.key (asc "a"), .idx 1, .key (asc "x"), .idx 0] := by
  decide +kernel
/-- the errors of the two ways to insert into something that is not an array are different -/
example : insert sampleEnv false sampleDoc { c := .null } [.str (asc "c"), .int 0] = (sampleDoc, .err .typeNotMatch) ∧
    insert sampleEnv false (.bool true) { c := .null } [.int 0] = (.bool true, .err .notArrayValue) := by decide +kernel

end JV
