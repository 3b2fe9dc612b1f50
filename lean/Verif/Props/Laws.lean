import Verif.Proofs.Laws
import Verif.Props.Modify
/-!
C71: laws about two edits in a row: when they commute, when the second one undoes the first.

`Same` is equality of contents: scalars alike, arrays element by element, objects as maps. By C14 and C32 such values marshal to the same bytes under
every order of keys that only looks at the keys, and are Equal. Where the law says `=`, not even the order of setting or the counter of the object changes.
-/
namespace JV
open Spec

/-- `Set(c).At(ps...)` and `Set(d).At(qs...)` both go where they went in the other order, to places apart from each other: the outcome is the same. -/
theorem C71_commute (E : Env) (v v1 v2 v12 v21 : V) (c d : Ch) (ps qs : List Param) (l m : List Step) (hlm : Parts l m)
    (h1 : set E v c ps = (v1, .ok l)) (h12 : set E v1 d qs = (v12, .ok m))
    (h2 : set E v d qs = (v2, .ok m)) (h21 : set E v2 c ps = (v21, .ok l)) : Same v12 v21 :=
  setsTo_commute hlm (set_setsTo h1).2 (set_setsTo h12).2 (set_setsTo h2).2 (set_setsTo h21).2

/-- If two Sets to different members or elements of something both succeed on `v`, they succeed one after the other, in both orders, with the same outcome. -/
theorem C71_siblings (E : Env) (v v1 v2 : V) (c d : Ch) (p q : List Step) (hp : Small p) (hq : Small q) (hpq : Siblings p q)
    (h1 : set E v c (pathOf p) = (v1, .ok p)) (h2 : set E v d (pathOf q) = (v2, .ok q)) :
    ∃ v12 v21, set E v1 d (pathOf q) = (v12, .ok q) ∧ set E v2 c (pathOf p) = (v21, .ok p) ∧ Same v12 v21 := by
  obtain ⟨e1, s1⟩ := set_setsTo h1
  obtain ⟨e2, s2⟩ := set_setsTo h2
  obtain ⟨v12, s12⟩ := setsTo_sibling hpq hp hq s1 s2
  obtain ⟨v21, s21⟩ := setsTo_sibling (siblings_symm hpq) hq hp s2 s1
  exact ⟨v12, v21, setsTo_set e2 s12, setsTo_set e1 s21, setsTo_commute (siblings_parts hpq) s1 s12 s2 s21⟩

/-- Whether Set succeeds, and where it puts the child, does not depend on the child. -/
theorem C71_same_place (E : Env) (v v1 : V) (c d : Ch) (ps : List Param) (l : List Step) (hd : d.err = none) (hd' : d.c.uninit = false)
    (h1 : set E v c ps = (v1, .ok l)) : ∃ v2, set E v d ps = (v2, .ok l) := by
  obtain ⟨v2, h⟩ := (setsTo_again hd' (set_setsTo h1).2).1
  exact ⟨v2, setsTo_set hd h⟩

/-- The last of two Sets along the same path wins: as if the first had not been. -/
theorem C71_last_wins (E : Env) (v v1 : V) (c d : Ch) (ps : List Param) (l : List Step) (hs : ¬ Skips v ps) (hd : d.err = none) (hd' : d.c.uninit = false)
    (h1 : set E v c ps = (v1, .ok l)) : ∃ v12 v2, set E v1 d ps = (v12, .ok l) ∧ set E v d ps = (v2, .ok l) ∧ Same v12 v2 := by
  obtain ⟨⟨v2, h2⟩, h⟩ := setsTo_again hd' (set_setsTo h1).2
  obtain ⟨v12, h12⟩ := h hs
  exact ⟨v12, v2, setsTo_set hd h12, setsTo_set hd h2, setsTo_over (set_setsTo h1).2 h12 h2⟩

/-- Setting the same child twice is the same as setting it once. -/
theorem C71_idempotent (E : Env) (v v1 : V) (c : Ch) (ps : List Param) (l : List Step) (hs : ¬ Skips v ps) (h1 : set E v c ps = (v1, .ok l)) :
    ∃ v2, set E v1 c ps = (v2, .ok l) ∧ Same v2 v1 := by
  obtain ⟨e, s⟩ := set_setsTo h1
  obtain ⟨v12, v2, h12, h2, h⟩ := C71_last_wins E v v1 c c ps l hs e (setsTo_not_uninit s).2 h1
  rw [h1] at h2; cases h2
  exact ⟨v12, h12, h⟩

/-- Putting back what was there before undoes a Set. -/
theorem C71_set_back (E : Env) (v v1 d : V) (c : Ch) (ps : List Param) (l : List Step) (hd : d.uninit = false) (hg : get E v ps = .ok d)
    (h1 : set E v c ps = (v1, .ok l)) : ∃ v2, set E v1 { c := d } ps = (v2, .ok l) ∧ Same v2 v := by
  obtain ⟨m, hm, hd'⟩ := (get_iff E v ps d).1 hg
  have s1 := (set_setsTo h1).2
  have hns := addr_not_skips hm
  obtain ⟨v2, h2⟩ := (setsTo_again hd s1).2 hns
  cases setsTo_addr_det hm s1
  exact ⟨v2, setsTo_set rfl h2, setsTo_back hd' s1 h2⟩

/-- Delete undoes a Set that added a member to an object or an element to an array that was there (`l` is the place of the object or array). -/
theorem C71_set_delete (E : Env) (v v1 a : V) (c : Ch) (ps : List Param) (l : List Step) (s : Step) (hp : Plain ps) (hs : ¬ Skips v ps)
    (hv : Her (GoodNode E) v) (hc : Her (GoodNode E) c.c) (ha : v.at l = some a) (hn : v.at (l ++ [s]) = none)
    (h1 : set E v c ps = (v1, .ok (l ++ [s]))) : ∃ v2, delete E false v1 ps = (v2, .ok ()) ∧ Same v2 v := by
  have s1 := (set_setsTo h1).2
  exact delete_added hp hs (her_setsTo (closed_good E) s1 hc hv) s1 hn ha

/-- Delete undoes Insert: deleting the element at the position where the child has been put gives back exactly the value before. -/
theorem C71_insert_delete (E : Env) (after : Bool) (v v1 c : V) (pre : List Param) (p q : Param) (l : List Step) (xs : List V) (z : Int) (j : Nat)
    (hp : Plain pre) (ha : pre = [] ∧ l = [] ∨ Addr v pre l) (hx : v.at l = some (.arr xs)) (hz : intOf p = some z) (hq : intOf q = some (j : Int))
    (h1 : insert E after v { c := c } (pre ++ [p]) = (v1, .ok (l ++ [.idx j]))) : delete E false v1 (pre ++ [q]) = (v, .ok ()) := by
  rw [C23_insert E after v c pre p l xs z hp ha hx hz] at h1
  cases hi : index xs.length z with
  | none => rw [hi] at h1; cases h1
  | some i =>
    rw [hi] at h1
    simp only at h1
    injection h1 with h1 h3
    injection h3 with h3
    have h3 := (List.append_inj' h3 rfl).2
    injection h3 with h3
    injection h3 with h3
    have hlt := index_lt hi
    have hj : j ≤ xs.length := by rw [← h3]; split <;> omega
    rw [h3] at h1
    subst h1
    rw [delete_elem E hp (reach_replace _ ha) (replace_at _ hx) hq (i := j) (by rw [index_nat]; simp; omega)]
    rw [erase_insert _ _ _ hj, replace_twice _ _ hx, replace_same hx]

/-- Deleting the last (the first) element undoes an Append to the end (the beginning) of an existing array, exactly. -/
theorem C71_append_delete (E : Env) (beg : Bool) (v v1 c : V) (pre : List Param) (q : Param) (l r : List Step) (xs : List V)
    (hp : Plain pre) (ha : pre = [] ∧ l = [] ∨ Addr v pre l) (hx : v.at l = some (.arr xs)) (hq : intOf q = some (if beg then 0 else -1))
    (h1 : append E beg v { c := c } pre = (v1, .ok r)) : delete E false v1 (pre ++ [q]) = (v, .ok ()) := by
  have h2 : v1 = replace v l (.arr (if beg then c :: xs else xs ++ [c])) := by
    rcases ha with ⟨rfl, rfl⟩ | ha
    · cases hx
      rw [C24_append_root] at h1
      cases beg <;> cases h1 <;> rfl
    · cases pre with
      | nil => cases ha
      | cons x pre =>
        rw [C24_append E beg v c x pre l xs (hp x (by simp)) ha hx] at h1
        cases beg <;> cases h1 <;> rfl
  subst h2
  cases beg with
  | true =>
    rw [delete_elem E hp (reach_replace _ ha) (replace_at _ hx) hq (i := 0) (by simp [index])]
    simp only [if_true, List.eraseIdx_cons_zero]
    rw [replace_twice _ _ hx, replace_same hx]
  | false =>
    rw [delete_elem E hp (reach_replace _ ha) (replace_at _ hx) hq (i := xs.length) (by simp [index]; omega)]
    rw [replace_twice _ _ hx]
    rw [show (if false = true then c :: xs else xs ++ [c]).eraseIdx xs.length = xs by simp [List.eraseIdx_append_of_length_le], replace_same hx]

/-- Inserting the deleted element before the one that took its place (appending it if it was the last) undoes a Delete, exactly. -/
theorem C71_delete_insert (E : Env) (v v1 d : V) (pre : List Param) (p q : Param) (l : List Step) (xs : List V) (z : Int) (i : Nat)
    (hp : Plain pre) (ha : pre = [] ∧ l = [] ∨ Addr v pre l) (hx : v.at l = some (.arr xs)) (hz : intOf p = some z) (hi : index xs.length z = some i)
    (hd : xs[i]? = some d) (hq : intOf q = some (i : Int)) (h1 : delete E false v (pre ++ [p]) = (v1, .ok ())) :
    (i + 1 < xs.length → insert E false v1 { c := d } (pre ++ [q]) = (v, .ok (l ++ [.idx i]))) ∧
    (i + 1 = xs.length → append E false v1 { c := d } pre = (v, .ok (l ++ [.idx i]))) := by
  rw [delete_elem E hp ha hx hz hi] at h1
  cases h1
  have hlt := index_lt hi
  have hlen : (xs.eraseIdx i).length = xs.length - 1 := by rw [List.length_eraseIdx]; simp [hlt]
  constructor
  · intro h
    rw [C23_insert E false _ d pre q l _ _ hp (reach_replace _ ha) (replace_at _ hx) hq]
    rw [show index (xs.eraseIdx i).length (i : Int) = some i by rw [index_nat]; omega]
    simp only [Bool.false_eq_true, if_false]
    rw [insert_erase _ _ _ hd, replace_twice _ _ hx, replace_same hx]
  · intro h
    have he : xs.eraseIdx i ++ [d] = xs := by
      have := insert_erase _ _ _ hd
      rw [List.take_of_length_le (by omega), List.drop_of_length_le (by omega)] at this
      exact this
    have hw := replace_at (.arr (xs.eraseIdx i)) hx
    have hli : (xs.eraseIdx i).length = i := by omega
    rcases ha with ⟨rfl, rfl⟩ | ha
    · cases hx
      show append E false (.arr (xs.eraseIdx i)) { c := d } [] = _
      rw [C24_append_root]
      simp [he, hli]
    · cases pre with
      | nil => cases ha
      | cons x pre =>
        rw [C24_append E false _ d x pre l _ (hp x (by simp)) (addr_replace _ ha) hw]
        simp only [Bool.false_eq_true, if_false]
        rw [he, hli, replace_twice _ _ hx, replace_same hx]

/-- Edits below two existing values that are apart from each other, Set, Delete, Append or Insert in any combination, whether they succeed or
fail: neither notices the other, and both orders end in exactly the same value. -/
theorem C71_apart (E : Env) (v a b : V) (ps qs : List Param) (l m : List Step) (e f : Edit) (hp : Plain ps) (hq : Plain qs) (hl : Addr v ps l) (hm : Addr v qs m)
    (hlm : Parts l m) (ha : v.at l = some a) (hb : v.at m = some b) (he : e.Fits a) (hf : f.Fits b) :
    (f.run E (e.run E v ps).1 qs).1 = (e.run E (f.run E v qs).1 ps).1 ∧ (f.run E (e.run E v ps).1 qs).2 = (f.run E v qs).2 ∧
      (e.run E (f.run E v qs).1 ps).2 = (e.run E v ps).2 :=
  edits_commute hp hq hl hm hlm ha hb e f he hf

/-! ### cases -/

-- C71_apart: deleting below "a" and appending below "b", counted from the end
example : let v : V := .arr [.arr [.null, .bool true], .obj 1 [⟨asc "b", 1, .arr []⟩] none]
    Addr v [.int 0] [.idx 0] ∧ Addr v [.int (-1)] [.idx 1] ∧ Parts [.idx 0] [.idx 1] ∧ (Edit.delete (.int (-2)) []).Fits (.arr [.null, .bool true]) ∧
    (Edit.append false { c := .null } (.str (asc "b")) []).Fits (.obj 1 [⟨asc "b", 1, .arr []⟩] none) ∧
    ((Edit.append false { c := .null } (.str (asc "b")) []).run sampleEnv ((Edit.delete (.int (-2)) []).run sampleEnv v [.int 0]).1 [.int (-1)]).1 =
      .arr [.arr [.bool true], .obj 1 [⟨asc "b", 1, .arr [.null]⟩] none] :=
  ⟨.idx _ _ _ _ rfl rfl, .idx _ _ _ _ rfl rfl, .here _ _ _ _ (by simp), by intro q hq; simp at hq; subst hq; rfl, ⟨rfl, rfl⟩, by decide +kernel⟩

-- two Sets that both create the object they go into
example : ∃ v1 v2 v12 v21, set sampleEnv newObject { c := .null } (pathOf [.key (asc "a"), .key (asc "b")]) = (v1, .ok [.key (asc "a"), .key (asc "b")]) ∧
    set sampleEnv newObject { c := .bool true } (pathOf [.key (asc "a"), .key (asc "c"), .idx 0]) = (v2, .ok [.key (asc "a"), .key (asc "c"), .idx 0]) ∧
    set sampleEnv v1 { c := .bool true } (pathOf [.key (asc "a"), .key (asc "c"), .idx 0]) = (v12, .ok [.key (asc "a"), .key (asc "c"), .idx 0]) ∧
    set sampleEnv v2 { c := .null } (pathOf [.key (asc "a"), .key (asc "b")]) = (v21, .ok [.key (asc "a"), .key (asc "b")]) ∧ v12 ≠ v21 ∧ Same v12 v21 ∧
    v12 = .obj 1 [⟨asc "a", 1, .obj 2 [⟨asc "b", 1, .null⟩, ⟨asc "c", 2, .arr [.bool true]⟩] none⟩] none := by
  obtain ⟨v12, v21, h1, h2, h⟩ := C71_siblings sampleEnv newObject
    (.obj 1 [⟨asc "a", 1, .obj 1 [⟨asc "b", 1, .null⟩] none⟩] none) (.obj 1 [⟨asc "a", 1, .obj 1 [⟨asc "c", 1, .arr [.bool true]⟩] none⟩] none)
    { c := .null } { c := .bool true } [.key (asc "a"), .key (asc "b")] [.key (asc "a"), .key (asc "c"), .idx 0]
    (by intro i hi; simp at hi) (by intro i hi; simp at hi; omega) (.deeper _ _ _ (.key _ _ _ _ (by decide))) (by decide +kernel) (by decide +kernel)
  have e1 : set sampleEnv (.obj 1 [⟨asc "a", 1, .obj 1 [⟨asc "b", 1, .null⟩] none⟩] none) { c := .bool true } (pathOf [.key (asc "a"), .key (asc "c"), .idx 0]) =
    (.obj 1 [⟨asc "a", 1, .obj 2 [⟨asc "b", 1, .null⟩, ⟨asc "c", 2, .arr [.bool true]⟩] none⟩] none, .ok [.key (asc "a"), .key (asc "c"), .idx 0]) := by decide +kernel
  have e2 : set sampleEnv (.obj 1 [⟨asc "a", 1, .obj 1 [⟨asc "c", 1, .arr [.bool true]⟩] none⟩] none) { c := .null } (pathOf [.key (asc "a"), .key (asc "b")]) =
    (.obj 1 [⟨asc "a", 1, .obj 2 [⟨asc "c", 1, .arr [.bool true]⟩, ⟨asc "b", 2, .null⟩] none⟩] none, .ok [.key (asc "a"), .key (asc "b")]) := by decide +kernel
  refine ⟨_, _, v12, v21, (by decide +kernel), (by decide +kernel), h1, h2, ?_, h, ?_⟩
  · rw [e1] at h1; rw [e2] at h2; cases h1; cases h2; decide
  · rw [e1] at h1; cases h1; rfl

-- Without the hypothesis of C71_siblings: places apart from each other, each Set succeeds on `{}`, but after the first the second fails.
example : (set sampleEnv newObject { c := .null } [.str (asc "a"), .str (asc "b")]).2 = .ok [.key (asc "a"), .key (asc "b")] ∧
    (set sampleEnv newObject { c := .null } [.str (asc "a"), .int 0]).2 = .ok [.key (asc "a"), .idx 0] ∧
    Parts [.key (asc "a"), .key (asc "b")] [.key (asc "a"), .idx 0] ∧
    ∃ e, (set sampleEnv (set sampleEnv newObject { c := .null } [.str (asc "a"), .str (asc "b")]).1 { c := .null } [.str (asc "a"), .int 0]).2 = .err e :=
  ⟨by decide +kernel, by decide +kernel, .there _ _ _ (.here _ _ _ _ (by simp)), .parameterError, by decide +kernel⟩

-- Without `¬ Skips`: the same Set twice makes two elements.
example : set sampleEnv (.arr []) { c := .null } [.int 5, .str (asc "a")] = (.arr [.obj 1 [⟨asc "a", 1, .null⟩] none], .ok [.idx 0, .key (asc "a")]) ∧
    set sampleEnv (.arr [.obj 1 [⟨asc "a", 1, .null⟩] none]) { c := .null } [.int 5, .str (asc "a")] =
      (.arr [.obj 1 [⟨asc "a", 1, .null⟩] none, .obj 1 [⟨asc "a", 1, .null⟩] none], .ok [.idx 1, .key (asc "a")]) := ⟨by decide +kernel, by decide +kernel⟩

-- C71_set_back: the contents come back, the order of setting does not
example : get sampleEnv (.obj 2 [⟨asc "a", 1, .null⟩, ⟨asc "b", 2, .null⟩] none) [.str (asc "a")] = .ok .null ∧
    (set sampleEnv (set sampleEnv (.obj 2 [⟨asc "a", 1, .null⟩, ⟨asc "b", 2, .null⟩] none) { c := .bool true } [.str (asc "a")]).1 { c := .null } [.str (asc "a")]).1 =
      .obj 4 [⟨asc "a", 4, .null⟩, ⟨asc "b", 2, .null⟩] none := ⟨by decide +kernel, by decide +kernel⟩

-- C71_set_delete inside a document
example : ¬ Skips sampleDoc [.str (asc "a"), .int 2] ∧ Her (GoodNode sampleEnv) sampleDoc ∧ (∃ a, sampleDoc.at [.key (asc "a")] = some a) ∧
    sampleDoc.at [.key (asc "a"), .idx 2] = none ∧
    (set sampleEnv sampleDoc { c := .null } [.str (asc "a"), .int 2]).2 = .ok [.key (asc "a"), .idx 2] ∧
    delete sampleEnv false (set sampleEnv sampleDoc { c := .null } [.str (asc "a"), .int 2]).1 [.str (asc "a"), .int 2] = (sampleDoc, .ok ()) := by
  refine ⟨?_, ?_, ⟨_, rfl⟩, by decide +kernel, by decide +kernel, by decide +kernel⟩
  · intro h
    cases h with
    | key _ _ _ _ c _ _ h1 h2 => cases h2
  · refine her_of_kids ⟨by decide, trivial⟩ fun c hc => ?_
    simp [Kid, sampleDoc] at hc
    rcases hc with rfl | rfl
    · refine her_of_kids trivial fun c hc => ?_
      simp [Kid] at hc
      rcases hc with rfl | rfl
      · exact her_leaf trivial trivial
      · refine her_of_kids ⟨by decide, trivial⟩ fun c hc => ?_
        simp [Kid] at hc
        subst hc
        exact her_leaf trivial trivial
    · exact her_leaf trivial trivial

-- C71_insert_delete, C71_append_delete, C71_delete_insert inside a document
example : insert sampleEnv true sampleDoc { c := .null } [.str (asc "a"), .int (-1)] =
      (replace sampleDoc [.key (asc "a")] (.arr [sampleNum "1", .obj 1 [⟨asc "b", 1, .null⟩] none, .null]), .ok [.key (asc "a"), .idx 2]) ∧
    delete sampleEnv false (insert sampleEnv true sampleDoc { c := .null } [.str (asc "a"), .int (-1)]).1 [.str (asc "a"), .int 2] = (sampleDoc, .ok ()) ∧
    delete sampleEnv false (append sampleEnv false sampleDoc { c := .null } [.str (asc "a")]).1 [.str (asc "a"), .int (-1)] = (sampleDoc, .ok ()) ∧
    delete sampleEnv false (append sampleEnv true sampleDoc { c := .null } [.str (asc "a")]).1 [.str (asc "a"), .int 0] = (sampleDoc, .ok ()) ∧
    insert sampleEnv false (delete sampleEnv false sampleDoc [.str (asc "a"), .int (-2)]).1 { c := sampleNum "1" } [.str (asc "a"), .int 0] =
      (sampleDoc, .ok [.key (asc "a"), .idx 0]) :=
  ⟨by decide +kernel, by decide +kernel, by decide +kernel, by decide +kernel, by decide +kernel⟩

end JV
