import Verif.Model.Compare
import Verif.Spec.Compare
import Verif.Proofs.SetSeq
/-!
Lemmas on comparing.
-/
namespace JV
open Spec

/-- the number a decimal stands for -/
def Dec.val (d : Dec) : Rat := (d.m : Rat) * (10 : Rat) ^ d.e

theorem ten_pos (e : Int) : (0 : Rat) < (10 : Rat) ^ e := Rat.zpow_pos (by decide)

theorem rescale_val (a b : Dec) : a.val = ((a.rescale b).1 : Rat) * (10 : Rat) ^ (min a.e b.e) ∧ b.val = ((a.rescale b).2 : Rat) * (10 : Rat) ^ (min a.e b.e) := by
  have key : ∀ (m e e' : Int), e' ≤ e → (m : Rat) * (10 : Rat) ^ e = ((m * 10 ^ (e - e').toNat : Int) : Rat) * (10 : Rat) ^ e' := by
    intro m e e' h
    have h1 : e = ((e - e').toNat : Int) + e' := by omega
    conv => lhs; rw [h1]
    rw [Rat.zpow_add (by decide), Rat.zpow_natCast, Rat.intCast_mul, Rat.intCast_pow, Rat.mul_assoc]
    rfl
  exact ⟨key _ _ _ (by omega), key _ _ _ (by omega)⟩

theorem dec_eq (a b : Dec) : a.eq b = true ↔ a.val = b.val := by
  obtain ⟨h1, h2⟩ := rescale_val a b
  simp only [Dec.eq, decide_eq_true_eq]
  constructor
  · intro h; rw [h1, h2, h]
  · intro h
    rw [h1, h2] at h
    have := ten_pos (min a.e b.e)
    have h3 : ((a.rescale b).1 : Rat) = (a.rescale b).2 := by
      have hne : (10 : Rat) ^ min a.e b.e ≠ 0 := by intro h0; rw [h0] at this; exact absurd this (by decide)
      rw [← Rat.mul_div_cancel (a := ((a.rescale b).1 : Rat)) hne, h, Rat.mul_div_cancel hne]
    exact Rat.intCast_inj.1 h3

theorem dec_gt (a b : Dec) : a.gt b = true ↔ b.val < a.val := by
  obtain ⟨h1, h2⟩ := rescale_val a b
  simp only [Dec.gt, decide_eq_true_eq, gt_iff_lt]
  rw [h1, h2, Rat.mul_lt_mul_right (ten_pos _), Rat.intCast_lt_intCast]

theorem dec_ge (a b : Dec) : a.ge b = true ↔ b.val ≤ a.val := by
  obtain ⟨h1, h2⟩ := rescale_val a b
  simp only [Dec.ge, decide_eq_true_eq, ge_iff_le]
  rw [← Rat.not_lt, h1, h2, Rat.mul_lt_mul_right (ten_pos _), Rat.intCast_lt_intCast, Int.not_lt]

/-- the number a text counts as -/
def valOf (D : DecFn) (s : Bytes) : Rat := (decOf D s).val

theorem numberEqual_iff (D : DecFn) (s t : Bytes) : numberEqual D s t = true ↔ valOf D s = valOf D t := by
  unfold numberEqual
  split
  · rename_i h; subst h; simp
  · exact dec_eq _ _

/-! ### Equal -/

theorem members_eq {n kvs low k} : members (.obj n kvs low) k = (lookup k kvs).map Ent.v := by
  simp only [members, V.child]

theorem subset_of_length {l l' : List Bytes} (hn : l.Nodup) (hs : ∀ k ∈ l, k ∈ l') (hl : l.length = l'.length) : ∀ k ∈ l', k ∈ l := by
  intro k hk
  apply Classical.byContradiction
  intro hk'
  have := List.Nodup.length_le_of_subset (l₁ := k :: l) (l₂ := l') (List.nodup_cons.2 ⟨hk', hn⟩) (by
    intro x hx
    rcases List.mem_cons.1 hx with rfl | hx
    · exact hk
    · exact hs x hx)
  simp at this
  omega

theorem same_length {l l' : List Bytes} (hn : l.Nodup) (hn' : l'.Nodup) (h : ∀ k, k ∈ l ↔ k ∈ l') : l.length = l'.length :=
  Nat.le_antisymm (List.Nodup.length_le_of_subset hn fun k hk => (h k).1 hk) (List.Nodup.length_le_of_subset hn' fun k hk => (h k).2 hk)

theorem equalL_iff (D : DecFn) : ∀ (xs ys : List V), xs.length = ys.length →
    (equalL D xs ys = true ↔ ∀ (i : Nat) x y, xs[i]? = some x → ys[i]? = some y → equal D x y = true)
  | [], ys, h => by cases ys <;> simp_all [equalL]
  | x :: xs, [], h => by simp at h
  | x :: xs, y :: ys, h => by
    have ih := equalL_iff D xs ys (by simpa using h)
    simp only [equalL]
    constructor
    · intro h'
      by_cases he : equal D x y = true
      · rw [if_pos he] at h'
        intro i x' y' hx hy
        cases i with
        | zero => simp at hx hy; subst hx hy; exact he
        | succ i => exact ih.1 h' i x' y' (by simpa using hx) (by simpa using hy)
      · rw [if_neg he] at h'; cases h'
    · intro h'
      rw [if_pos (h' 0 x y (by simp) (by simp))]
      exact ih.2 fun i x' y' hx hy => h' (i + 1) x' y' (by simpa using hx) (by simpa using hy)

theorem equalM_iff (D : DecFn) (r : List Ent) : ∀ (es : List Ent),
    (equalM D es r = true ↔ ∀ e ∈ es, ∃ e', lookup e.key r = some e' ∧ equal D e.v e'.v = true)
  | [] => by simp [equalM]
  | ⟨k, i, c⟩ :: es => by
    have ih := equalM_iff D r es
    simp only [equalM]
    cases hl : lookup k r with
    | none => simp [hl]
    | some e' =>
      simp only
      by_cases he : equal D c e'.v = true
      · rw [if_pos he, ih]; simp [hl, he]
      · rw [if_neg he]; simp [hl, he]

theorem equal_iff (D : DecFn) (v w : V) (hv : Her KeysNodup v) (hw : Her KeysNodup w) : equal D v w = true ↔ EqualTo (valOf D) v w := by
  induction v using kid_ind generalizing w with
  | step v ih =>
    cases v with
    | nilp => simp only [equal]; exact ⟨fun h => (by cases h), fun h => (by cases h)⟩
    | notExist => simp only [equal]; exact ⟨fun h => (by cases h), fun h => (by cases h)⟩
    | null => cases w <;> simp only [equal] <;> first | exact ⟨fun _ => .null, fun _ => trivial⟩ | exact ⟨fun h => (by cases h), fun h => (by cases h)⟩
    | bool b =>
      cases w <;> simp only [equal] <;> try exact ⟨fun h => (by cases h), fun h => (by cases h)⟩
      constructor
      · intro h; rw [beq_iff_eq.1 h]; exact .bool _
      · intro h; cases h; simp
    | str b =>
      cases w <;> simp only [equal] <;> try exact ⟨fun h => (by cases h), fun h => (by cases h)⟩
      constructor
      · intro h; rw [beq_iff_eq.1 h]; exact .str _
      · intro h; cases h; simp
    | num s n =>
      cases w <;> simp only [equal] <;> try exact ⟨fun h => (by cases h), fun h => (by cases h)⟩
      rw [numberEqual_iff]
      constructor
      · intro h; exact .num _ _ _ _ h
      · intro h; cases h; assumption
    | arr xs =>
      cases w with
      | arr ys =>
        simp only [equal]
        constructor
        · intro h
          by_cases hl : xs.length = ys.length
          · rw [if_neg (by simpa using hl)] at h
            refine .arr _ _ hl fun i x y hx hy => ?_
            exact (ih x (List.mem_of_getElem? hx) y (her_kid hv hv (List.mem_of_getElem? hx)) (her_kid hw hw (List.mem_of_getElem? hy))).1
              ((equalL_iff D xs ys hl).1 h i x y hx hy)
          · rw [if_pos hl] at h; cases h
        · intro h
          cases h with
          | arr _ _ hl h =>
            rw [if_neg (by simpa using hl)]
            refine (equalL_iff D xs ys hl).2 fun i x y hx hy => ?_
            exact (ih x (List.mem_of_getElem? hx) y (her_kid hv hv (List.mem_of_getElem? hx)) (her_kid hw hw (List.mem_of_getElem? hy))).2 (h i x y hx hy)
      | _ => simp only [equal]; exact ⟨fun h => (by cases h), fun h => (by cases h)⟩
    | obj n kvs low =>
      cases w with
      | obj n' kvs' low' =>
        have hn : (kvs.map Ent.key).Nodup := her_self hv
        have hn' : (kvs'.map Ent.key).Nodup := her_self hw
        simp only [equal]
        constructor
        · intro h
          by_cases hl : kvs.length = kvs'.length
          · rw [if_neg (by simpa using hl), equalM_iff] at h
            have hsub : ∀ k ∈ kvs.map Ent.key, k ∈ kvs'.map Ent.key := by
              intro k hk
              obtain ⟨e, he, rfl⟩ := List.mem_map.1 hk
              obtain ⟨e', h1, -⟩ := h e he
              exact lookup_isSome.1 (by rw [h1]; rfl)
            have hsub' := subset_of_length hn hsub (by simpa using hl)
            refine .obj _ _ _ _ _ _ (fun k => ?_) fun k c c' h1 h2 => ?_
            · rw [Bool.eq_iff_iff, members_some, members_some]
              exact ⟨hsub k, hsub' k⟩
            · rw [members_eq, Option.map_eq_some_iff] at h1 h2
              obtain ⟨e, h1, rfl⟩ := h1
              obtain ⟨e', h2, rfl⟩ := h2
              obtain ⟨rfl, he⟩ := lookup_some_key h1
              obtain ⟨e'', h3, h4⟩ := h e he
              rw [h2] at h3; cases h3
              exact (ih _ ⟨e, he, rfl⟩ _ (her_kid hv hv ⟨e, he, rfl⟩) (her_kid hw hw ⟨e', (lookup_some_key h2).2, rfl⟩)).1 h4
          · rw [if_pos hl] at h; cases h
        · intro h
          cases h with
          | obj _ _ _ _ _ _ hk h =>
            have hl : kvs.length = kvs'.length := by
              have := same_length hn hn' fun k => by
                have := hk k
                rw [Bool.eq_iff_iff, members_some, members_some] at this
                exact this
              simpa using this
            rw [if_neg (by simpa using hl), equalM_iff]
            intro e he
            have h1 := hk e.key
            rw [members_of_mem hn he] at h1
            rw [members_eq] at h1
            cases hl' : lookup e.key kvs' with
            | none => rw [hl'] at h1; cases h1
            | some e' =>
              refine ⟨e', rfl, ?_⟩
              exact (ih _ ⟨e, he, rfl⟩ _ (her_kid hv hv ⟨e, he, rfl⟩) (her_kid hw hw ⟨e', (lookup_some_key hl').2, rfl⟩)).2
                (h e.key e.v e'.v (members_of_mem hn he) (by rw [members_eq, hl']; rfl))
      | _ => simp only [equal]; exact ⟨fun h => (by cases h), fun h => (by cases h)⟩

theorem equalTo_symm {val : Bytes → Rat} {v w : V} (h : EqualTo val v w) : EqualTo val w v := by
  induction h with
  | null => exact .null
  | bool b => exact .bool b
  | str s => exact .str s
  | num s t n m h => exact .num _ _ _ _ h.symm
  | arr xs ys hl _ ih => exact .arr _ _ hl.symm fun i x y hx hy => ih i y x hy hx
  | obj n kvs low n' kvs' low' hk _ ih => exact .obj _ _ _ _ _ _ (fun k => (hk k).symm) fun k c c' h1 h2 => ih k c' c h2 h1

theorem equalTo_trans {val : Bytes → Rat} {v w u : V} (h : EqualTo val v w) (h' : EqualTo val w u) : EqualTo val v u := by
  induction h generalizing u with
  | null => exact h'
  | bool b => exact h'
  | str s => exact h'
  | num s t n m h => cases h' with | num _ t' _ m' h' => exact .num _ _ _ _ (h.trans h')
  | arr xs ys hl _ ih =>
    cases h' with
    | arr _ zs hl' h' =>
      refine .arr _ _ (hl.trans hl') fun i x z hx hz => ?_
      have : i < ys.length := by have := (List.getElem?_eq_some_iff.1 hx).1; omega
      exact ih i x ys[i] hx (List.getElem?_eq_getElem this) (h' i _ z (List.getElem?_eq_getElem this) hz)
  | obj n kvs low n' kvs' low' hk _ ih =>
    cases h' with
    | obj _ _ _ n'' kvs'' low'' hk' h' =>
      refine .obj _ _ _ _ _ _ (fun k => (hk k).trans (hk' k)) fun k c d h1 h2 => ?_
      have := hk k
      rw [h1] at this
      obtain ⟨c', h3⟩ := Option.isSome_iff_exists.1 this.symm
      exact ih k c c' h1 h3 (h' k c' d h3 h2)

theorem equalTo_refl {val : Bytes → Rat} {v : V} (h : Her Solid v) : EqualTo val v v := by
  induction v using kid_ind with
  | step v ih =>
    have h' := her_iff.1 h
    cases v with
    | arr xs =>
      refine .arr _ _ rfl fun i x y h1 h2 => ?_
      rw [h1] at h2; cases h2
      exact ih x (List.mem_of_getElem? h1) (h'.2 (.idx i) x h1)
    | obj n kvs low =>
      refine .obj _ _ _ _ _ _ (fun _ => rfl) fun k c c' h1 h2 => ?_
      rw [h1] at h2; cases h2
      exact ih c (child_kid h1) (h'.2 (.key k) c h1)
    | nilp => exact absurd rfl h'.1.1
    | notExist => exact absurd rfl h'.1.2
    | null => exact .null
    | bool b => exact .bool b
    | str s => exact .str s
    | num s n => exact .num _ _ _ _ rfl

theorem equalTo_solid {val : Bytes → Rat} {v w : V} (h : EqualTo val v w) : Her Solid v := by
  induction h with
  | arr xs ys hl _ ih =>
    refine her_iff.2 ⟨by simp [Solid], fun s c hc => ?_⟩
    cases s with
    | key k => cases hc
    | idx i =>
      have hc : xs[i]? = some c := hc
      have : i < ys.length := by have := (List.getElem?_eq_some_iff.1 hc).1; omega
      exact ih i c ys[i] hc (List.getElem?_eq_getElem this)
  | obj n kvs low n' kvs' low' hk _ ih =>
    refine her_iff.2 ⟨by simp [Solid], fun s c hc => ?_⟩
    cases s with
    | idx i => cases hc
    | key k =>
      have := hk k
      rw [show members (.obj n kvs low) k = some c from hc] at this
      obtain ⟨c', h3⟩ := Option.isSome_iff_exists.1 this.symm
      exact ih k c c' hc h3
  | _ => exact her_leaf (by simp [Solid]) trivial

/-- Marshal order and iteration order do not matter -/
theorem same_equalTo {val : Bytes → Rat} {v w : V} (h : Same v w) (hv : Her Solid v) : EqualTo val v w := by
  induction h with
  | scalar v _ => exact equalTo_refl hv
  | num src n n' _ => exact .num _ _ _ _ rfl
  | arr xs ys hl _ ih =>
    exact .arr _ _ hl fun i x y hx hy => ih i x y hx hy ((her_iff.1 hv).2 (.idx i) x hx)
  | obj n kvs low n' kvs' low' hk _ ih =>
    exact .obj _ _ _ _ _ _ hk fun k c c' h1 h2 => ih k c c' h1 h2 ((her_iff.1 hv).2 (.key k) c h1)

/-! ### Contains -/

theorem runFrom_iff (D : DecFn) (xs : List V) : ∀ (i : Nat) (ys : List V),
    (runFrom D xs i ys = true ↔ ∀ (j : Nat) y, ys[j]? = some y → equal D (xs[i + j]?.getD .notExist) y = true)
  | i, [] => by simp [runFrom]
  | i, y :: ys => by
    have ih := runFrom_iff D xs (i + 1) ys
    simp only [runFrom]
    constructor
    · intro h j y' hy
      by_cases he : equal D (xs[i]?.getD .notExist) y = true
      · rw [if_pos he, ih] at h
        cases j with
        | zero => simp at hy; subst hy; exact he
        | succ j =>
          have := h j y' (by simpa using hy)
          rwa [show i + 1 + j = i + (j + 1) by omega] at this
      · rw [if_neg he] at h; cases h
    · intro h
      rw [if_pos (show equal D (xs[i]?.getD .notExist) y = true from h 0 y rfl), ih]
      intro j y' hy
      have := h (j + 1) y' (by simpa using hy)
      rwa [show i + (j + 1) = i + 1 + j by omega] at this

theorem arrayHasSubset_iff (D : DecFn) {xs ys : List V} (hx : ∀ x ∈ xs, Her KeysNodup x) (hy : ∀ y ∈ ys, Her KeysNodup y) :
    arrayHasSubset D xs ys = true ↔ ∃ pre ys' post, xs = pre ++ ys' ++ post ∧ EqualTo (valOf D) (.arr ys) (.arr ys') := by
  have hA : ∀ {l : List V}, (∀ x ∈ l, Her KeysNodup x) → Her KeysNodup (.arr l) := fun h => her_of_kids trivial fun c hc => h c hc
  unfold arrayHasSubset
  by_cases h0 : ys.length = 0
  · rw [if_pos h0]
    have : ys = [] := List.eq_nil_of_length_eq_zero h0
    subst this
    exact ⟨fun _ => ⟨[], [], xs, by simp, .arr _ _ rfl (by simp)⟩, fun _ => rfl⟩
  rw [if_neg h0]
  by_cases h1 : xs.length = ys.length
  · rw [if_pos h1, equal_iff D _ _ (hA hy) (hA hx)]
    constructor
    · intro h; exact ⟨[], xs, [], by simp, h⟩
    · rintro ⟨pre, ys', post, rfl, h⟩
      have h2 := h
      cases h2 with
      | arr _ _ hl _ =>
        simp only [List.length_append] at h1
        have e1 : pre = [] := List.eq_nil_of_length_eq_zero (by omega)
        have e2 : post = [] := List.eq_nil_of_length_eq_zero (by omega)
        subst e1 e2
        simpa using h
  rw [if_neg h1]
  by_cases h2 : ys.length > xs.length
  · rw [if_pos h2]
    constructor
    · intro h; cases h
    · rintro ⟨pre, ys', post, rfl, h⟩
      cases h with
      | arr _ _ hl _ => simp only [List.length_append] at h2; omega
  rw [if_neg h2, List.any_eq_true]
  constructor
  · rintro ⟨st, hst, h⟩
    rw [List.mem_range] at hst
    rw [if_neg (by omega), runFrom_iff] at h
    refine ⟨xs.take st, (xs.drop st).take ys.length, (xs.drop st).drop ys.length, ?_, ?_⟩
    · rw [List.append_assoc, List.take_append_drop, List.take_append_drop]
    · refine .arr _ _ (by simp; omega) fun j y x h3 h4 => ?_
      have hj : j < ys.length := (List.getElem?_eq_some_iff.1 h3).1
      rw [List.getElem?_take, if_pos hj, List.getElem?_drop] at h4
      have h5 := h j y h3
      rw [h4] at h5
      exact equalTo_symm ((equal_iff D x y (hx x (List.mem_of_getElem? h4)) (hy y (List.mem_of_getElem? h3))).1 h5)
  · rintro ⟨pre, ys', post, rfl, h⟩
    cases h with
    | arr _ _ hl h =>
      refine ⟨pre.length, by rw [List.mem_range]; simp only [List.length_append] at *; omega, ?_⟩
      rw [if_neg (by simp only [List.length_append] at *; omega), runFrom_iff]
      intro j y h3
      have hj : j < ys.length := (List.getElem?_eq_some_iff.1 h3).1
      have h4 : (pre ++ ys' ++ post)[pre.length + j]? = some ys'[j] := by
        rw [List.append_assoc, List.getElem?_append_right (by omega), show pre.length + j - pre.length = j by omega,
          List.getElem?_append_left (by omega), List.getElem?_eq_getElem]
      rw [h4]
      refine (equal_iff D _ y (hx _ (List.mem_of_getElem? h4)) (hy y (List.mem_of_getElem? h3))).2 ?_
      exact equalTo_symm (h j y _ h3 (List.getElem?_eq_getElem (by omega)))

theorem objectHasSubset_iff (E : Env) (D : DecFn) {n kvs' low} : ∀ (es : List Ent),
    (∀ e ∈ es, ∀ w, ∃ b, contains E D e.v w = .ok b) →
    (∃ b, objectHasSubset E D (.obj n kvs' low) es = .ok b) ∧
    (objectHasSubset E D (.obj n kvs' low) es = .ok true ↔ ∀ e ∈ es, ∃ c, members (.obj n kvs' low) e.key = some c ∧ contains E D e.v c = .ok true)
  | [], _ => ⟨⟨true, rfl⟩, by simp [objectHasSubset]⟩
  | ⟨k, i, c⟩ :: es, h => by
    obtain ⟨ih1, ih2⟩ := objectHasSubset_iff E D es fun e he => h e (by simp [he])
    simp only [objectHasSubset]
    rw [get_key]
    cases hl : lookup k kvs' with
    | none => exact ⟨⟨false, rfl⟩, by simp [members_eq, hl]⟩
    | some e' =>
      obtain ⟨b, hb⟩ := h ⟨k, i, c⟩ (by simp) e'.v
      simp only [Ent.v_mk] at hb
      simp only [hb]
      cases b with
      | false => exact ⟨⟨false, rfl⟩, by simp [members_eq, hl, hb]⟩
      | true => exact ⟨ih1, by rw [ih2]; simp [members_eq, hl, hb]⟩

theorem contains_iff (E : Env) (D : DecFn) (sub v : V) (hs : Her KeysNodup sub) (hv : Her KeysNodup v) (hn : Her (· ≠ .nilp) sub) :
    (∃ b, contains E D sub v = .ok b) ∧ (contains E D sub v = .ok true ↔ Within (valOf D) sub v) := by
  induction sub using kid_ind generalizing v with
  | step sub ih =>
    have sc : ∀ s, IsScalar s → Her KeysNodup s → ((∃ b, (R.ok (equal D v s) : R Bool) = .ok b) ∧ ((R.ok (equal D v s) : R Bool) = .ok true ↔ Within (valOf D) s v)) := by
      intro s hsc hks
      refine ⟨⟨_, rfl⟩, ?_⟩
      rw [R.ok.injEq, equal_iff D v s hv hks]
      constructor
      · intro h; exact .scalar _ _ hsc (equalTo_symm h)
      · intro h
        cases h with
        | scalar _ _ _ h => exact equalTo_symm h
        | arr => exact hsc.elim
        | obj => exact hsc.elim
    cases sub with
    | nilp => exact absurd rfl (her_self hn)
    | notExist => exact sc _ trivial hs
    | null => exact sc _ trivial hs
    | bool b => exact sc _ trivial hs
    | str b => exact sc _ trivial hs
    | num s n => exact sc _ trivial hs
    | arr ys =>
      cases v with
      | arr xs =>
        refine ⟨⟨_, rfl⟩, ?_⟩
        simp only [contains]
        rw [R.ok.injEq, arrayHasSubset_iff D (fun x hx => her_kid hv hv hx) (fun y hy => her_kid hs hs hy)]
        constructor
        · rintro ⟨pre, ys', post, rfl, h⟩; exact .arr _ _ _ _ h
        · intro h
          generalize hw : V.arr xs = w at h
          cases h with
          | scalar _ _ h => exact h.elim
          | arr pre _ ys' post h => cases hw; exact ⟨_, _, _, rfl, h⟩
      | _ =>
        refine ⟨⟨_, rfl⟩, fun h => (by cases h), fun h => ?_⟩
        cases h with
        | scalar _ _ h => exact h.elim
    | obj n kvs low =>
      cases v with
      | obj n' kvs' low' =>
        simp only [contains]
        have hk : (kvs.map Ent.key).Nodup := her_self hs
        have hk' : (kvs'.map Ent.key).Nodup := her_self hv
        have tot : ∀ sub : V, Her (· ≠ .nilp) sub → Her KeysNodup sub → ∀ w, ∃ b, contains E D sub w = .ok b := by
          intro sub
          induction sub using kid_ind with
          | step sub ih =>
            intro hn hs w
            cases sub with
            | nilp => exact absurd rfl (her_self hn)
            | arr ys => cases w <;> exact ⟨_, rfl⟩
            | obj n kvs low =>
              cases w with
              | obj n' kvs' low' =>
                simp only [contains]
                exact (objectHasSubset_iff E D kvs fun e he w => ih e.v ⟨e, he, rfl⟩ (her_kid hs hn ⟨e, he, rfl⟩) (her_kid hs hs ⟨e, he, rfl⟩) w).1
              | _ => exact ⟨_, rfl⟩
            | _ => exact ⟨_, rfl⟩
        obtain ⟨h1, h2⟩ := objectHasSubset_iff E D (n := n') (kvs' := kvs') (low := low') kvs
          fun e he w => tot e.v (her_kid hs hn ⟨e, he, rfl⟩) (her_kid hs hs ⟨e, he, rfl⟩) w
        refine ⟨h1, h2.trans ⟨fun h => ?_, fun h e he => ?_⟩⟩
        · refine .obj _ _ _ _ _ _ (fun k => (members (.obj n' kvs' low') k).getD .notExist) (fun k c hc => ?_) fun k c hc => ?_
          · rw [members_eq, Option.map_eq_some_iff] at hc
            obtain ⟨e, hc, rfl⟩ := hc
            obtain ⟨rfl, he⟩ := lookup_some_key hc
            obtain ⟨c, h3, -⟩ := h e he
            rw [h3]; rfl
          · rw [members_eq, Option.map_eq_some_iff] at hc
            obtain ⟨e, hc, rfl⟩ := hc
            obtain ⟨rfl, he⟩ := lookup_some_key hc
            obtain ⟨c, h3, h4⟩ := h e he
            rw [h3]
            exact (ih e.v ⟨e, he, rfl⟩ c (her_kid hs hs ⟨e, he, rfl⟩) ((her_iff.1 hv).2 (.key e.key) c h3) (her_kid hs hn ⟨e, he, rfl⟩)).2.1 h4
        · cases h with
          | scalar _ _ h => exact h.elim
          | obj _ _ _ _ _ _ f hf hw =>
            have hm : members (.obj n kvs low) e.key = some e.v := members_of_mem hk he
            have h3 := hf e.key e.v hm
            exact ⟨_, h3, (ih e.v ⟨e, he, rfl⟩ _ (her_kid hs hs ⟨e, he, rfl⟩) ((her_iff.1 hv).2 (.key e.key) _ h3) (her_kid hs hn ⟨e, he, rfl⟩)).2.2 (hw e.key e.v hm)⟩
      | _ =>
        refine ⟨⟨_, rfl⟩, fun h => (by cases h), fun h => ?_⟩
        cases h with
        | scalar _ _ h => exact h.elim

theorem within_refl {val : Bytes → Rat} {v : V} (h : Her Solid v) : Within val v v := by
  induction v using kid_ind with
  | step v ih =>
    have h' := her_iff.1 h
    cases v with
    | arr xs =>
      have := Within.arr (val := val) [] xs xs [] (equalTo_refl h)
      simpa using this
    | obj n kvs low =>
      refine .obj _ _ _ _ _ _ (fun k => (members (.obj n kvs low) k).getD .notExist) (fun k c hc => by rw [hc]; rfl) fun k c hc => ?_
      rw [hc]
      exact ih c (child_kid hc) (h'.2 (.key k) c hc)
    | _ => exact .scalar _ _ trivial (equalTo_refl h)

theorem within_antisymm {val : Bytes → Rat} {a b : V} (h : Within val a b) (h' : Within val b a) : EqualTo val a b := by
  induction h with
  | scalar v w hs he => exact he
  | arr pre ys ys' post he =>
    cases he with
    | arr _ _ hl he =>
      generalize hw : V.arr (pre ++ ys' ++ post) = w at h'
      generalize hu : V.arr ys = u at h'
      cases h' with
      | scalar _ _ hs => subst hw; exact hs.elim
      | obj => cases hw
      | arr pre' zs zs' post' he' =>
        cases hw
        cases hu
        cases he' with
        | arr _ _ hl' _ =>
          simp only [List.length_append] at hl hl'
          have h1 : pre = [] := List.eq_nil_of_length_eq_zero (by omega)
          have h2 : post = [] := List.eq_nil_of_length_eq_zero (by omega)
          subst h1 h2
          simp only [List.nil_append, List.append_nil]
          exact .arr _ _ (by simp only [List.length_append]; omega) he
  | obj n kvs low n' kvs' low' f hf _ ih =>
    generalize hw : V.obj n' kvs' low' = w at h'
    generalize hu : V.obj n kvs low = u at h'
    cases h' with
    | scalar _ _ hs => subst hw; exact hs.elim
    | arr => cases hw
    | obj m ws wlow m' ws' wlow' g hg hg' =>
      cases hw
      cases hu
      refine .obj _ _ _ _ _ _ (fun k => ?_) (fun k c c' hc hc' => ?_)
      · rw [Bool.eq_iff_iff]
        constructor
        · intro h; obtain ⟨c, hc⟩ := Option.isSome_iff_exists.1 h; rw [hf k c hc]; rfl
        · intro h; obtain ⟨c, hc⟩ := Option.isSome_iff_exists.1 h; rw [hg k c hc]; rfl
      · have e1 := hf k c hc
        rw [hc'] at e1
        cases e1
        have e2 := hg k _ hc'
        rw [hc] at e2
        cases e2
        exact ih k _ hc (hg' k _ hc')

theorem within_trans {val : Bytes → Rat} {a b c : V} (h : Within val a b) (h' : Within val b c) : Within val a c := by
  induction h generalizing c with
  | scalar v w hs he =>
    cases h' with
    | scalar _ _ _ he' => exact .scalar _ _ hs (equalTo_trans he he')
    | arr => cases he; exact hs.elim
    | obj => cases he; exact hs.elim
  | arr pre ys ys' post he =>
    generalize hw : V.arr (pre ++ ys' ++ post) = w at h'
    cases h' with
    | scalar _ _ hs => subst hw; exact hs.elim
    | obj => cases hw
    | arr pre' zs zs' post' he' =>
      cases hw
      cases he' with
      | arr _ _ hl he' =>
        have hlen : pre.length + ys'.length + post.length = zs'.length := by simpa [Nat.add_assoc] using hl
        have hz : zs' = zs'.take pre.length ++ (zs'.drop pre.length).take ys'.length ++ (zs'.drop pre.length).drop ys'.length := by
          rw [List.append_assoc, List.take_append_drop, List.take_append_drop]
        have hm : EqualTo val (.arr ys') (.arr ((zs'.drop pre.length).take ys'.length)) := by
          refine .arr _ _ (by simp; omega) fun i x y hx hy => ?_
          have hi : i < ys'.length := (List.getElem?_eq_some_iff.1 hx).1
          rw [List.getElem?_take, if_pos hi, List.getElem?_drop] at hy
          refine he' (pre.length + i) x y ?_ hy
          rw [List.append_assoc, List.getElem?_append_right (by omega), show pre.length + i - pre.length = i by omega, List.getElem?_append_left hi, hx]
        have := Within.arr (val := val) (pre' ++ zs'.take pre.length) ys _ ((zs'.drop pre.length).drop ys'.length ++ post') (equalTo_trans he hm)
        rw [hz]
        simpa [List.append_assoc] using this
  | obj n kvs low n' kvs' low' f hf _ ih =>
    generalize hw : V.obj n' kvs' low' = w at h'
    cases h' with
    | scalar _ _ hs => subst hw; exact hs.elim
    | arr => cases hw
    | obj _ _ _ n'' kvs'' low'' g hg hw' =>
      cases hw
      exact .obj _ _ _ _ _ _ g (fun k c hc => hg k _ (hf k c hc)) fun k c hc => ih k c hc (hw' k _ (hf k c hc))

end JV
