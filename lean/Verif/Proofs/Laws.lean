import Verif.Proofs.Compose
import Verif.Proofs.SetSeq
import Verif.Proofs.Hered
import Verif.Spec.Laws
/-! Edits compared: what two trees look like at every location. -/
namespace JV
open Spec

/-- what a node is, apart from its contents -/
inductive Shape where
  | obj
  | arr
  | leaf (v : V)

def shape : V → Shape
  | .obj _ _ _ => .obj
  | .arr _ => .arr
  | v => .leaf v

/-- the container a step goes into -/
def via : Step → Shape
  | .key _ => .obj
  | .idx _ => .arr

theorem same_of_shape : ∀ (v w : V), (∀ l, (v.at l).map shape = (w.at l).map shape) → Same v w := by
  intro v
  induction v using kid_ind with
  | step v ih =>
    intro w h
    have h0 : shape v = shape w := by have := h []; simpa [V.at] using this
    have hc : ∀ s, (v.child s).isSome = (w.child s).isSome := fun s => by
      have := h [s]
      simp only [V.at] at this
      cases h1 : v.child s <;> cases h2 : w.child s <;> simp [h1, h2] at this ⊢
    have hd : ∀ s c d, v.child s = some c → w.child s = some d → ∀ l, (c.at l).map shape = (d.at l).map shape := fun s c d h1 h2 l => by
      have := h (s :: l)
      simpa only [V.at, h1, h2] using this
    cases v with
    | arr xs =>
      cases w with
      | arr ys =>
        have hl : ∀ i : Nat, (xs[i]?).isSome = (ys[i]?).isSome := fun i => hc (.idx i)
        refine .arr _ _ ?_ fun i x y h1 h2 => ih x (List.mem_of_getElem? h1) y (hd (.idx i) x y h1 h2)
        apply Classical.byContradiction
        intro hne
        rcases Nat.lt_or_gt_of_ne hne with hlt | hlt
        · have := hl xs.length; rw [List.getElem?_eq_none (Nat.le_refl _), List.getElem?_eq_getElem hlt] at this; cases this
        · have := hl ys.length; rw [List.getElem?_eq_none (Nat.le_refl ys.length), List.getElem?_eq_getElem hlt] at this; cases this
      | _ => cases h0
    | obj n kvs low =>
      cases w with
      | obj n' kvs' low' =>
        exact .obj _ _ _ _ _ _ (fun k => hc (.key k)) fun k c c' h1 h2 => ih c (child_kid h1) c' (hd (.key k) c c' h1 h2)
      | _ => cases h0
    | _ => cases w <;> cases h0 <;> exact .scalar _ trivial

/-- a location is apart from another, at or below it, or above it -/
theorem parts_or : ∀ l x : List Step, Parts l x ∨ (∃ r, x = l ++ r) ∨ ∃ s r, l = x ++ s :: r
  | [], x => .inr (.inl ⟨x, rfl⟩)
  | s :: l, [] => .inr (.inr ⟨s, l, rfl⟩)
  | s :: l, t :: x => by
    by_cases h : s = t
    · subst h
      rcases parts_or l x with h | ⟨r, rfl⟩ | ⟨u, r, rfl⟩
      · exact .inl (.there _ _ _ h)
      · exact .inr (.inl ⟨r, rfl⟩)
      · exact .inr (.inr ⟨u, r, rfl⟩)
    · exact .inl (.here _ _ _ _ h)

theorem parts_symm {l m : List Step} (h : Parts l m) : Parts m l := by
  induction h with
  | here s t l m h => exact .here _ _ _ _ (Ne.symm h)
  | there s l m _ ih => exact .there _ _ _ ih

theorem parts_below {l m : List Step} (r : List Step) (h : Parts l m) : Parts l (m ++ r) := by
  induction h with
  | here s t l m h => exact .here _ _ _ _ h
  | there s l m _ ih => exact .there _ _ _ ih

theorem parts_below' {l m : List Step} (r : List Step) (h : Parts l m) : Parts (l ++ r) m := parts_symm (parts_below r (parts_symm h))

theorem parts_self_append (l : List Step) {s t : Step} (h : s ≠ t) (a b : List Step) : Parts (l ++ s :: a) (l ++ t :: b) := by
  induction l with
  | nil => exact .here _ _ _ _ h
  | cons u l ih => exact .there _ _ _ ih

theorem child_via {v c : V} {s : Step} (h : v.child s = some c) : shape v = via s := by
  rcases child_some_cases h with ⟨n, kvs, low, k, e, rfl, rfl, -, -⟩ | ⟨xs, i, rfl, rfl, -⟩ <;> rfl

theorem at_via {v c : V} {x r : List Step} {s : Step} (h : v.at (x ++ s :: r) = some c) : (v.at x).map shape = some (via s) := by
  rw [at_append] at h
  cases hx : v.at x with
  | none => rw [hx] at h; cases h
  | some a =>
    rw [hx] at h
    simp only [Option.bind_some, V.at] at h
    cases ha : a.child s with
    | none => rw [ha] at h; cases h
    | some d => simp [child_via ha]

theorem setsTo_via {E : Env} {c v v' : V} {ps : List Param} {x r : List Step} {s : Step} (h : SetsTo E c v ps v' (x ++ s :: r)) :
    (v'.at x).map shape = some (via s) := at_via (setsTo_at h)

/-- what was above the location before -/
theorem setsTo_old {E : Env} {c v v' : V} {ps : List Param} {x r : List Step} {s : Step} (h : SetsTo E c v ps v' (x ++ s :: r)) :
    v.at x = none ∨ (v.at x).map shape = some (via s) := by
  have := setsTo_made h x s r rfl
  cases this with
  | inObj k n kvs low n' kvs' low' h1 h2 => exact .inr (by rw [h1]; rfl)
  | inArr i xs ys h1 h2 h3 => exact .inr (by rw [h1]; rfl)
  | newObj k c h1 h2 => exact .inl h1
  | newArr c h1 h2 => exact .inl h1

theorem setsTo_below {E : Env} {c v v' : V} {ps : List Param} {l : List Step} (h : SetsTo E c v ps v' l) (r : List Step) :
    v'.at (l ++ r) = c.at r := by rw [at_append, setsTo_at h]; rfl

/-- two Sets at places apart from each other, in either order -/
theorem setsTo_commute {E : Env} {c d v v1 v2 v12 v21 : V} {ps qs : List Param} {l m : List Step} (hp : Parts l m)
    (h1 : SetsTo E c v ps v1 l) (h12 : SetsTo E d v1 qs v12 m) (h2 : SetsTo E d v qs v2 m) (h21 : SetsTo E c v2 ps v21 l) : Same v12 v21 := by
  apply same_of_shape
  intro x
  rcases parts_or l x with hl | ⟨r, rfl⟩ | ⟨s, r, rfl⟩
  · rw [setsTo_frame h21 x hl]
    rcases parts_or m x with hm | ⟨r, rfl⟩ | ⟨s, r, rfl⟩
    · rw [setsTo_frame h12 x hm, setsTo_frame h1 x hl, setsTo_frame h2 x hm]
    · rw [setsTo_below h12, setsTo_below h2]
    · rw [setsTo_via h12, setsTo_via h2]
  · rw [setsTo_below h21, setsTo_frame h12 _ (parts_below r (parts_symm hp)), setsTo_below h1]
  · rw [setsTo_via h21]
    rcases parts_or m x with hm | ⟨t, rfl⟩ | ⟨t, r', rfl⟩
    · rw [setsTo_frame h12 x hm, setsTo_via h1]
    · exfalso
      rw [List.append_assoc] at hp
      have : ∀ (m a : List Step), ¬ Parts (m ++ a) m := by
        intro m a h
        induction m with
        | nil => cases h
        | cons u m ih => cases h with
          | here _ _ _ _ h => exact h rfl
          | there _ _ _ h => exact ih h
      exact this _ _ hp
    · rw [setsTo_via h12]
      rcases setsTo_old h12 with h | h
      · have := setsTo_via h1; rw [h] at this; cases this
      · rw [← h, setsTo_via h1]

/-- the last of two Sets at the same place wins -/
theorem setsTo_over {E : Env} {c d v v1 v2 v12 : V} {ps qs rs : List Param} {l : List Step}
    (h1 : SetsTo E c v ps v1 l) (h12 : SetsTo E d v1 qs v12 l) (h2 : SetsTo E d v rs v2 l) : Same v12 v2 := by
  apply same_of_shape
  intro x
  rcases parts_or l x with hl | ⟨r, rfl⟩ | ⟨s, r, rfl⟩
  · rw [setsTo_frame h12 x hl, setsTo_frame h1 x hl, setsTo_frame h2 x hl]
  · rw [setsTo_below h12, setsTo_below h2]
  · rw [setsTo_via h12, setsTo_via h2]

theorem setsTo_back {E : Env} {c d v v1 v2 : V} {ps qs : List Param} {l : List Step} (hd : v.at l = some d)
    (h1 : SetsTo E c v ps v1 l) (h2 : SetsTo E d v1 qs v2 l) : Same v2 v := by
  apply same_of_shape
  intro x
  rcases parts_or l x with hl | ⟨r, rfl⟩ | ⟨s, r, rfl⟩
  · rw [setsTo_frame h2 x hl, setsTo_frame h1 x hl]
  · rw [setsTo_below h2, at_append, hd]; rfl
  · rw [setsTo_via h2, at_via hd]

/-- A Set that succeeded with one value succeeds at the same place with every other, before or after -/
theorem setsTo_again {E : Env} {c d v v1 : V} {ps : List Param} {l : List Step} (hd : d.uninit = false) (h : SetsTo E c v ps v1 l) :
    (∃ v2, SetsTo E d v ps v2 l) ∧ (¬ Skips v ps → ∃ v2, SetsTo E d v1 ps v2 l) := by
  induction h with
  | slice v q qs v' l h ih =>
    obtain ⟨⟨v2, h2⟩, h3⟩ := ih
    exact ⟨⟨_, .slice _ _ _ _ _ h2⟩, fun hs => let ⟨w, hw⟩ := h3 fun h' => hs (.slice _ _ _ h'); ⟨_, .slice _ _ _ _ _ hw⟩⟩
  | key n kvs low k hc => exact ⟨⟨_, .key _ _ _ _ hd⟩, fun _ => ⟨_, .key _ _ _ _ hd⟩⟩
  | idx xs p z i hc hz hi => exact ⟨⟨_, .idx _ _ _ _ hd hz hi⟩, fun _ => ⟨_, .idx _ _ _ _ hd hz (by rw [List.length_set]; exact hi)⟩⟩
  | idxEnd xs p hc hz => exact ⟨⟨_, .idxEnd _ _ hd hz⟩, fun _ => ⟨_, .idx _ _ _ _ hd hz (by rw [List.length_append]; exact index_end _)⟩⟩
  | keyIn n kvs low k d0 q qs d' l h1 h2 ih =>
    obtain ⟨⟨v2, h3⟩, h4⟩ := ih
    exact ⟨⟨_, .keyIn _ _ _ _ _ _ _ _ _ h1 h3⟩, fun hs => let ⟨w, hw⟩ := h4 fun h' => hs (.key _ _ _ _ _ _ _ h1 h'); ⟨_, .keyIn _ _ _ _ _ _ _ _ _ (child_put_self h1) hw⟩⟩
  | keyNew n kvs low k d0 q qs d' l h1 hf h2 ih =>
    obtain ⟨⟨v2, h3⟩, h4⟩ := ih
    exact ⟨⟨_, .keyNew _ _ _ _ _ _ _ _ _ h1 hf h3⟩, fun _ => let ⟨w, hw⟩ := h4 (fresh_not_skips hf); ⟨_, .keyIn _ _ _ _ _ _ _ _ _ (child_setKey_self ..) hw⟩⟩
  | idxIn xs p z i d0 q qs d' l hz hi h1 h2 ih =>
    obtain ⟨⟨v2, h3⟩, h4⟩ := ih
    exact ⟨⟨_, .idxIn _ _ _ _ _ _ _ _ _ hz hi h1 h3⟩, fun hs => let ⟨w, hw⟩ := h4 fun h' => hs (.idx _ _ _ _ _ _ _ hz hi h1 h');
      ⟨_, .idxIn _ _ _ _ _ _ _ _ _ hz (by rw [List.length_set]; exact hi) (child_put_self h1) hw⟩⟩
  | idxNew xs p z d0 q qs d' l hz hi hf h2 ih =>
    obtain ⟨⟨v2, h3⟩, h4⟩ := ih
    refine ⟨⟨_, .idxNew _ _ _ _ _ _ _ _ hz hi hf h3⟩, fun hs => ?_⟩
    obtain ⟨w, hw⟩ := h4 (fresh_not_skips hf)
    have hn : index (xs.length + 1) z = some xs.length := by
      apply Classical.byContradiction
      intro h
      exact hs (.here _ _ _ _ _ hz hi h)
    exact ⟨_, .idxIn _ _ _ _ _ _ _ _ _ hz (by rw [List.length_append]; exact hn) (by simp [child_idx]) hw⟩

theorem small_head {i : Nat} {l : List Step} (h : Small (.idx i :: l)) : i < 2 ^ 63 := h i (by simp)

/-- Only the child on the way, and for a new element the length, decide about the first step. -/
theorem setsTo_local {E : Env} {d v v2 w : V} {s : Step} {m : List Step} (hs : Small (s :: m)) (h : SetsTo E d v (pathOf (s :: m)) v2 (s :: m)) (hsh : shape w = shape v)
    (hc : w.child s = v.child s) (hl : v.child s = none → ∀ xs ys, v = .arr xs → w = .arr ys → ys.length = xs.length) :
    ∃ w2, SetsTo E d w (pathOf (s :: m)) w2 (s :: m) := by
  cases s with
  | key k =>
    cases m with
    | nil =>
      cases h with
      | key n kvs low k hd =>
        cases w <;> cases hsh
        exact ⟨_, .key _ _ _ _ hd⟩
    | cons t m =>
      cases h with
      | keyIn n kvs low k d0 q qs d' l h1 h2 =>
        cases w <;> cases hsh
        exact ⟨_, .keyIn _ _ _ _ _ _ _ _ _ (hc.trans h1) h2⟩
      | keyNew n kvs low k d0 q qs d' l h1 hf h2 =>
        cases w <;> cases hsh
        exact ⟨_, .keyNew _ _ _ _ _ _ _ _ _ (hc.trans h1) hf h2⟩
  | idx i =>
    have hi := stepParam_int (small_head hs)
    have lt_of : ∀ {ys : List V} {a : V}, (V.arr ys).child (.idx i) = some a → i < ys.length := fun {ys a} h => by
      rw [child_idx] at h; exact (List.getElem?_eq_some_iff.1 h).1
    cases m with
    | nil =>
      cases h with
      | idx xs p z _ hd hz hx =>
        cases w <;> cases hsh
        rename_i ys
        rw [hi] at hz; cases hz
        have hlt := (index_nat.1 hx).2
        have : i < ys.length := lt_of (hc.trans (by rw [child_idx]; exact List.getElem?_eq_getElem hlt))
        exact ⟨_, .idx _ _ _ _ hd hi (index_nat.2 ⟨rfl, this⟩)⟩
      | idxEnd xs p hd hz =>
        cases w <;> cases hsh
        rename_i ys
        have hn : (V.arr xs).child (.idx xs.length) = none := by rw [child_idx]; exact List.getElem?_eq_none (Nat.le_refl _)
        have := hl hn xs ys rfl rfl
        have h3 := SetsTo.idxEnd (E := E) ys (stepParam (.idx xs.length)) hd (by rw [this]; exact hi)
        rw [this] at h3
        exact ⟨_, h3⟩
    | cons t m =>
      cases h with
      | idxIn xs p z _ d0 q qs d' l hz hx h1 h2 =>
        cases w <;> cases hsh
        exact ⟨_, .idxIn _ _ _ _ _ _ _ _ _ hi (index_nat.2 ⟨rfl, lt_of (hc.trans h1)⟩) (hc.trans h1) h2⟩
      | idxNew xs p z d0 q qs d' l hz hx hf h2 =>
        cases w <;> cases hsh
        rename_i ys
        have hn : (V.arr xs).child (.idx xs.length) = none := by rw [child_idx]; exact List.getElem?_eq_none (Nat.le_refl _)
        have := hl hn xs ys rfl rfl
        have h3 := SetsTo.idxNew (E := E) ys (stepParam (.idx xs.length)) _ d0 _ _ d' _ hi (by rw [this]; exact index_len _) hf h2
        rw [this] at h3
        exact ⟨_, h3⟩

/-- the first step of a Set -/
theorem setsTo_head {E : Env} {c v v1 : V} {s : Step} {ps : List Param} {l : List Step} (h : SetsTo E c v ps v1 (s :: l)) :
    shape v1 = shape v ∧ shape v = via s ∧ (∀ t, t ≠ s → v1.child t = v.child t) ∧
      ∀ xs ys, v = .arr xs → v1 = .arr ys → (∃ a, v.child s = some a) → ys.length = xs.length := by
  have hv1 : shape v1 = via s := by
    have := setsTo_via (x := []) h; simpa [V.at] using this
  have hv : shape v = via s := by
    rcases setsTo_old (x := []) h with h | h
    · cases h
    · simpa [V.at] using h
  have hfr : ∀ t, t ≠ s → v1.child t = v.child t := fun t ht => by
    have := setsTo_frame h [t] (.here _ _ _ _ (Ne.symm ht))
    simp only [V.at] at this
    cases h1 : v1.child t <;> cases h2 : v.child t <;> simp [h1, h2] at this ⊢
    exact this
  refine ⟨hv1.trans hv.symm, hv, hfr, ?_⟩
  rintro xs ys rfl rfl ⟨a, ha⟩
  have hs : ∀ i : Nat, (ys[i]?).isSome = (xs[i]?).isSome := fun i => by
    by_cases hi : Step.idx i = s
    · subst hi
      have h1 : ∃ b, (V.arr ys).child (.idx i) = some b := by
        have := setsTo_at h
        simp only [V.at] at this
        cases h1 : (V.arr ys).child (.idx i) with
        | none => rw [h1] at this; cases this
        | some b => exact ⟨b, rfl⟩
      obtain ⟨b, hb⟩ := h1
      rw [child_idx] at ha hb
      rw [ha, hb]; rfl
    · have := hfr _ hi
      rw [child_idx, child_idx] at this
      rw [this]
  apply Classical.byContradiction
  intro hne
  rcases Nat.lt_or_gt_of_ne hne with hlt | hlt
  · have := hs ys.length; rw [List.getElem?_eq_none (Nat.le_refl _), List.getElem?_eq_getElem hlt] at this; cases this
  · have := hs xs.length; rw [List.getElem?_eq_none (Nat.le_refl xs.length), List.getElem?_eq_getElem hlt] at this; cases this

theorem fresh_same {a b : Step} (h : via a = via b) {d d' : V} (h1 : freshFor (stepParam a) = some d) (h2 : freshFor (stepParam b) = some d') : d = d' := by
  rcases freshFor_not_uninit h1 with rfl | rfl <;> rcases freshFor_not_uninit h2 with rfl | rfl <;> try rfl
  all_goals
    exfalso
    cases a <;> cases b <;> simp [via, stepParam, freshFor, newObject, newArray] at h h1 h2

theorem siblings_via {a b : Step} {l m : List Step} (h : Siblings (a :: l) (b :: m)) : via a = via b := by
  cases h <;> rfl

/-- one Set does not get in the way of another one to a sibling -/
theorem setsTo_sibling {E : Env} {c d : V} {p q : List Step} (hpq : Siblings p q) : ∀ {v v1 v2 : V}, Small p → Small q → SetsTo E c v (pathOf p) v1 p →
    SetsTo E d v (pathOf q) v2 q → ∃ v12, SetsTo E d v1 (pathOf q) v12 q := by
  induction hpq with
  | key j k l m h =>
    intro v v1 v2 _ hq h1 h2
    obtain ⟨a, b, c, e⟩ := setsTo_head h1
    refine setsTo_local hq h2 a (c _ fun h' => h (by cases h'; rfl)) fun _ xs ys hx _ => ?_
    subst hx; cases b
  | idx i j l m h =>
    intro v v1 v2 hp hq h1 h2
    obtain ⟨a, b, c, e⟩ := setsTo_head h1
    refine setsTo_local hq h2 a (c _ fun h' => h (by cases h'; rfl)) fun hn xs ys hx hy => e xs ys hx hy ?_
    subst hx
    -- both within the array or right after it, and not both right after it
    have hj := setsTo_made h2 [] _ _ rfl
    have hi := setsTo_made h1 [] _ _ rfl
    have hi' : i ≤ xs.length := by cases hi with
      | inArr _ _ _ h1 _ h3 => simp only [V.at, Option.some.injEq, V.arr.injEq] at h1; subst h1; exact h3
      | newArr _ h0 _ => simp [V.at] at h0
    have hj' : j ≤ xs.length := by cases hj with
      | inArr _ _ _ h1 _ h3 => simp only [V.at, Option.some.injEq, V.arr.injEq] at h1; subst h1; exact h3
      | newArr _ h0 _ => simp [V.at] at h0
    have : ¬ j < xs.length := fun hlt => by rw [child_idx, List.getElem?_eq_getElem hlt] at hn; cases hn
    have hlt : i < xs.length := by omega
    exact ⟨_, by rw [child_idx]; exact List.getElem?_eq_getElem hlt⟩
  | deeper s l m h ih =>
    intro v v1 v2 hp hq h1 h2
    obtain ⟨a, l, rfl⟩ : ∃ a l', l = a :: l' := by cases h <;> exact ⟨_, _, rfl⟩
    obtain ⟨b, m, rfl⟩ : ∃ a l', m = a :: l' := by cases h <;> exact ⟨_, _, rfl⟩
    have hv := siblings_via h
    cases s with
    | key k =>
      cases h1 with
      | keyIn n kvs low k d0 q qs d' l h1 h3 =>
        cases h2 with
        | keyIn _ _ _ _ d1 _ _ d1' _ h4 h5 =>
          rw [h1] at h4; cases h4
          obtain ⟨w, hw⟩ := ih (small_cons hp) (small_cons hq) h3 h5
          exact ⟨_, .keyIn _ _ _ _ _ _ _ _ _ (child_put_self h1) hw⟩
        | keyNew _ _ _ _ d1 _ _ d1' _ h4 hf h5 => rw [h1] at h4; cases h4
      | keyNew n kvs low k d0 q qs d' l h1 hf h3 =>
        cases h2 with
        | keyIn _ _ _ _ d1 _ _ d1' _ h4 h5 => rw [h1] at h4; cases h4
        | keyNew _ _ _ _ d1 _ _ d1' _ h4 hf' h5 =>
          cases fresh_same hv hf hf'
          obtain ⟨w, hw⟩ := ih (small_cons hp) (small_cons hq) h3 h5
          exact ⟨_, .keyIn _ _ _ _ _ _ _ _ _ (child_setKey_self ..) hw⟩
    | idx i =>
      have hi := stepParam_int (small_head hp)
      cases h1 with
      | idxIn xs _ z _ d0 q qs d' l hz hx h1 h3 =>
        have hlt := index_lt hx
        cases h2 with
        | idxIn _ _ z' _ d1 _ _ d1' _ hz' hx' h4 h5 =>
          rw [h1] at h4; cases h4
          obtain ⟨w, hw⟩ := ih (small_cons hp) (small_cons hq) h3 h5
          exact ⟨_, .idxIn _ _ _ _ _ _ _ _ _ hz (by rw [List.length_set]; exact hx) (child_put_self h1) hw⟩
        | idxNew _ _ z' d1 _ _ d1' _ hz' hx' hf h5 => exact absurd hlt (Nat.lt_irrefl _)
      | idxNew xs _ z d0 q qs d' l hz hx hf h3 =>
        cases h2 with
        | idxIn _ _ z' _ d1 _ _ d1' _ hz' hx' h4 h5 => exact absurd (index_lt hx') (Nat.lt_irrefl _)
        | idxNew _ _ z' d1 _ _ d1' _ hz' hx' hf' h5 =>
          cases fresh_same hv hf hf'
          obtain ⟨w, hw⟩ := ih (small_cons hp) (small_cons hq) h3 h5
          exact ⟨_, .idxIn _ _ _ _ _ _ _ _ _ hi (by rw [List.length_append]; exact index_end _) (by simp [child_idx]) hw⟩

theorem siblings_parts {l m : List Step} (h : Siblings l m) : Parts l m := by
  induction h with
  | key j k l m h => exact .here _ _ _ _ fun h' => h (by cases h'; rfl)
  | idx i j l m h => exact .here _ _ _ _ fun h' => h (by cases h'; rfl)
  | deeper s l m _ ih => exact .there _ _ _ ih

theorem siblings_symm {l m : List Step} (h : Siblings l m) : Siblings m l := by
  induction h with
  | key j k l m h => exact .key _ _ _ _ (Ne.symm h)
  | idx i j l m h => exact .idx _ _ _ _ (Ne.symm h)
  | deeper s l m _ ih => exact .deeper _ _ _ ih

/-! arrays: the same place again -/

theorem addr_replace {v : V} {ps : List Param} {l : List Step} (w : V) (h : Addr v ps l) : Addr (replace v l w) ps l := by
  induction h with
  | slice v q qs l _ ih => exact .slice _ _ _ _ ih
  | key n kvs low k c h =>
    have : replace (.obj n kvs low) [.key k] w = (V.obj n kvs low).put (.key k) w := by simp [replace, h]
    rw [this]
    exact .key _ _ _ _ w (child_put_self h)
  | idx xs p z i hz hi =>
    have hlt := index_lt hi
    have : replace (.arr xs) [.idx i] w = .arr (xs.set i w) := by simp [replace, child_idx, List.getElem?_eq_getElem hlt, V.put]
    rw [this]
    exact .idx _ _ _ _ hz (by rw [List.length_set]; exact hi)
  | keyCons n kvs low k c q qs l h1 h2 ih =>
    have : replace (.obj n kvs low) (.key k :: l) w = (V.obj n kvs low).put (.key k) (replace c l w) := by simp [replace, h1]
    rw [this]
    exact .keyCons _ _ _ _ _ _ _ _ (child_put_self h1) ih
  | idxCons xs p z i c q qs l hz hi h1 h2 ih =>
    have : replace (.arr xs) (.idx i :: l) w = (V.arr xs).put (.idx i) (replace c l w) := by simp [replace, h1]
    rw [this]
    exact .idxCons _ _ _ _ _ _ _ _ hz (by rw [List.length_set]; exact hi) (child_put_self h1) ih

/-- deleting an element of the array at `l` -/
theorem delete_elem (E : Env) {v : V} {pre : List Param} {l : List Step} {xs : List V} {p : Param} {z : Int} {i : Nat} (hp : Plain pre)
    (ha : pre = [] ∧ l = [] ∨ Addr v pre l) (hx : v.at l = some (.arr xs)) (hz : intOf p = some z) (hi : index xs.length z = some i) :
    delete E false v (pre ++ [p]) = (replace v l (.arr (xs.eraseIdx i)), .ok ()) := by
  have hs : p.isSlice = false := int_not_slice hz
  have h0 : delete E false (.arr xs) [p] = (.arr (xs.eraseIdx i), .ok ()) := by
    unfold delete
    rw [deleteAt_one, deleteAt1_nonslice _ _ _ _ hs, deleteLast_arr, hz]
    simp only [hi]
  rcases ha with ⟨rfl, rfl⟩ | ha
  · cases hx; exact h0
  · rw [delete_pre E ha hp hx p [] (by intro q hq; simp at hq; subst hq; exact hs), h0]

theorem reach_replace {v : V} {pre : List Param} {l : List Step} (w : V) (ha : pre = [] ∧ l = [] ∨ Addr v pre l) :
    pre = [] ∧ l = [] ∨ Addr (replace v l w) pre l := ha.imp id (addr_replace w)

theorem erase_insert {α : Type} (xs : List α) (c : α) (j : Nat) (h : j ≤ xs.length) : (xs.take j ++ c :: xs.drop j).eraseIdx j = xs := by
  rw [List.eraseIdx_append_of_length_le (by simp; omega)]
  simp [Nat.min_eq_left h]

theorem insert_erase {α : Type} (xs : List α) (c : α) (j : Nat) (h : xs[j]? = some c) : (xs.eraseIdx j).take j ++ c :: (xs.eraseIdx j).drop j = xs := by
  obtain ⟨hlt, rfl⟩ := List.getElem?_eq_some_iff.1 h
  rw [List.eraseIdx_eq_take_drop_succ, List.take_append_of_le_length (by simp; omega), List.take_take, Nat.min_self,
    List.drop_append_of_le_length (by simp; omega)]
  simp

theorem replace_via {v w b : V} {x r : List Step} {s : Step} (h : v.at (x ++ s :: r) = some b) : ((replace v (x ++ s :: r) w).at x).map shape = some (via s) :=
  at_via (replace_at w h)

/-- Deleting what a Set has added to an object or array that was there -/
theorem delete_added {E : Env} {c v v' a0 : V} {ps : List Param} {l : List Step} {s : Step} (hp : Plain ps) (hs : ¬ Skips v ps) (hg : Her (GoodNode E) v')
    (h : SetsTo E c v ps v' (l ++ [s])) (hn : v.at (l ++ [s]) = none) (ha : v.at l = some a0) :
    ∃ v2, delete E false v' ps = (v2, .ok ()) ∧ Same v2 v := by
  obtain ⟨l1, a, s1, b, e, h1, h2, h3⟩ := deleteAt_path E v' ps _ hp (setsTo_addr h hs)
  obtain ⟨rfl, e2⟩ := List.append_inj' e rfl
  cases e2
  clear e
  refine ⟨_, h3, same_of_shape _ _ fun x => ?_⟩
  have hn' : ∀ r, v.at (l ++ s :: r) = none := fun r => by
    rw [show l ++ s :: r = (l ++ [s]) ++ r by simp, at_append, hn]; rfl
  have hfr : ∀ t r, t ≠ s → (a.at (t :: r)) = v.at (l ++ t :: r) := fun t r ht => by
    rw [← setsTo_frame h (l ++ t :: r) (parts_self_append l (Ne.symm ht) [] r), at_append, h1]; rfl
  have hsh : shape b = shape a := by cases h2 <;> rfl
  rcases parts_or l x with hl | ⟨r, rfl⟩ | ⟨t, r, rfl⟩
  · rw [replace_frame b h1 x hl, setsTo_frame h x (parts_below' _ hl)]
  · rw [at_append, replace_at b h1]
    show (b.at r).map shape = _
    cases r with
    | nil =>
      rw [List.append_nil, ha]
      simp only [V.at, Option.map_some, hsh]
      have ea : (v'.at l).map shape = some (via s) := setsTo_via (r := []) h
      rw [h1] at ea
      rcases setsTo_old (r := []) h with h0 | h0
      · rw [ha] at h0; cases h0
      · rw [ha] at h0; exact ea.trans h0.symm
    | cons t r =>
      cases h2 with
      | key n kvs low k hk =>
        have hnd : (keys kvs).Nodup := (hg l _ h1).1
        cases t with
        | idx i =>
          rw [← hfr _ r (by simp)]
          rfl
        | key k' =>
          by_cases hkk : k' = k
          · subst hkk
            rw [hn']
            simp [V.at, child_key, lookup_erase _ _ _ hnd]
          · rw [← hfr (.key k') r (by simpa using hkk)]
            simp [V.at, child_key, lookup_erase _ _ _ hnd, Ne.symm hkk]
      | idx ys i hlt =>
        cases t with
        | key k =>
          rw [← hfr _ r (by simp)]
          rfl
        | idx j =>
          -- the element was the last one
          have ha0 : ∃ xs, a0 = .arr xs ∧ i = xs.length := by
            have := setsTo_made h l _ [] rfl
            cases this with
            | inArr _ xs _ h4 _ h5 =>
              rw [ha] at h4; cases h4
              refine ⟨xs, rfl, ?_⟩
              rw [at_append, ha] at hn
              simp only [Option.bind_some, V.at, child_idx] at hn
              cases hx : xs[i]? with
              | none => have := List.getElem?_eq_none_iff.1 hx; omega
              | some d => rw [hx] at hn; cases hn
            | newArr _ h4 _ => rw [ha] at h4; cases h4
          obtain ⟨xs, rfl, rfl⟩ := ha0
          have hys : ∀ j : Nat, j ≠ xs.length → ys[j]? = xs[j]? := fun j hj => by
            have := hfr (.idx j) [] (by simpa using hj)
            rw [at_append, ha] at this
            simp only [Option.bind_some, V.at, child_idx] at this
            cases h5 : ys[j]? <;> cases h6 : xs[j]? <;> simp [h5, h6] at this ⊢
            exact this
          have hj : (ys.eraseIdx xs.length)[j]? = xs[j]? := by
            rw [List.getElem?_eraseIdx]
            split
            · rename_i hlt; exact hys j (by omega)
            · rename_i hge
              rw [hys _ (by omega), List.getElem?_eq_none (by omega), List.getElem?_eq_none (by omega)]
          rw [at_append, ha]
          simp only [Option.bind_some, V.at, child_idx, hj]
  · have h4 : v'.at (x ++ t :: r) = some a := h1
    rw [replace_via h4]
    exact (at_via ha).symm

theorem set_setsTo {E : Env} {v v' : V} {ch : Ch} {ps : List Param} {l : List Step} (h : set E v ch ps = (v', .ok l)) :
    ch.err = none ∧ SetsTo E ch.c v ps v' l := by
  by_cases hne : ps = []
  · subst hne; unfold set at h; cases hc : ch.err <;> simp [hc, setAt] at h
  · rcases set_spec E v ch ps hne with ⟨m, h1, h3, h2⟩ | ⟨e, h1⟩
    · rw [h] at h1 h2; cases h1; exact ⟨h3, h2⟩
    · rw [h] at h1; cases h1

theorem setsTo_set {E : Env} {v v' : V} {ch : Ch} {ps : List Param} {l : List Step} (he : ch.err = none) (h : SetsTo E ch.c v ps v' l) :
    set E v ch ps = (v', .ok l) := by
  unfold set; rw [he]; exact setsTo_setAt h

theorem addr_not_skips {v : V} {ps : List Param} {l : List Step} (h : Addr v ps l) : ¬ Skips v ps := by
  induction h with
  | slice v q qs l _ ih => intro hs; cases hs with | slice _ _ _ h => exact ih h
  | key n kvs low k c h => intro hs; cases hs
  | idx xs p z i hz hi => intro hs; cases hs with | slice _ _ _ h => cases hz
  | keyCons n kvs low k c q qs l h1 h2 ih =>
    intro hs
    cases hs with
    | key _ _ _ _ c' _ _ h3 h4 => rw [h1] at h3; cases h3; exact ih h4
  | idxCons xs p z i c q qs l hz hi h1 h2 ih =>
    intro hs
    cases hs with
    | here _ _ z' _ _ hz' hi' _ => rw [hz] at hz'; cases hz'; rw [hi] at hi'; cases hi'
    | idx _ _ z' i' c' _ _ hz' hi' h3 h4 =>
      rw [hz] at hz'; cases hz'; rw [hi] at hi'; cases hi'; rw [h1] at h3; cases h3; exact ih h4

/-- where something is already, Set goes there -/
theorem setsTo_addr_det {E : Env} {c v v' : V} {ps : List Param} {l m : List Step} (h : Addr v ps m) (hs : SetsTo E c v ps v' l) : l = m := by
  induction h generalizing v' l with
  | slice v q qs m _ ih =>
    cases hs with
    | slice _ _ _ _ _ h => exact ih h
    | idx xs p z i hc hz hi => cases hz
    | idxEnd xs p hc hz => cases hz
  | key n kvs low k c h => cases hs; rfl
  | idx xs p z i hz hi =>
    cases hs with
    | slice _ _ _ _ _ h => cases hz
    | idx _ _ z' i' hc hz' hi' => rw [hz] at hz'; cases hz'; rw [hi] at hi'; cases hi'; rfl
    | idxEnd _ _ hc hz' => rw [hz] at hz'; cases hz'; rw [index_len] at hi; cases hi
  | keyCons n kvs low k c q qs l h1 h2 ih =>
    cases hs with
    | keyIn _ _ _ _ d _ _ d' m' h3 h4 => rw [h1] at h3; cases h3; rw [ih h4]
    | keyNew _ _ _ _ d _ _ d' m' h3 hf h4 => rw [h1] at h3; cases h3
  | idxCons xs p z i c q qs l hz hi h1 h2 ih =>
    cases hs with
    | idxIn _ _ z' i' d _ _ d' m' hz' hi' h3 h4 => rw [hz] at hz'; cases hz'; rw [hi] at hi'; cases hi'; rw [h1] at h3; cases h3; rw [ih h4]
    | idxNew _ _ z' d _ _ d' m' hz' hi' hf h4 => rw [hz] at hz'; cases hz'; rw [hi] at hi'; cases hi'

/-! exchanging nodes at places apart from each other -/

theorem putKey_comm (j k : Bytes) (hjk : j ≠ k) (a b : V) : ∀ kvs : List Ent, putKey k b (putKey j a kvs) = putKey j a (putKey k b kvs)
  | [] => rfl
  | e :: kvs => by
    have ih := putKey_comm j k hjk a b kvs
    cases e with
    | mk k0 i v0 => grind [putKey, Ent.key, Ent.id]

theorem put_comm (v : V) {s t : Step} (h : s ≠ t) (a b : V) : (v.put s a).put t b = (v.put t b).put s a := by
  cases v with
  | obj n kvs low =>
    cases s with
    | key j =>
      cases t with
      | key k => simp only [V.put]; rw [putKey_comm j k (fun h' => h (by rw [h']))]
      | idx i => rfl
    | idx i => cases t <;> rfl
  | arr xs =>
    cases s with
    | key j => cases t <;> rfl
    | idx i =>
      cases t with
      | key k => rfl
      | idx j => simp only [V.put]; rw [List.set_comm _ _ (fun h' => h (by rw [h']))]
  | _ => rfl

theorem replace_comm {l m : List Step} (h : Parts l m) : ∀ {v a b : V} (x y : V), v.at l = some a → v.at m = some b →
    replace (replace v l x) m y = replace (replace v m y) l x := by
  induction h with
  | here s t l m hne =>
    intro v a b x y ha hb
    simp only [V.at] at ha hb
    cases hs : v.child s with
    | none => rw [hs] at ha; cases ha
    | some c =>
      cases ht : v.child t with
      | none => rw [ht] at hb; cases hb
      | some d =>
        have e1 : replace v (s :: l) x = v.put s (replace c l x) := by simp [replace, hs]
        have e2 : replace v (t :: m) y = v.put t (replace d m y) := by simp [replace, ht]
        rw [e1, e2]
        simp only [replace, child_put_ne hne, child_put_ne (Ne.symm hne), hs, ht]
        exact put_comm v hne _ _
  | there s l m _ ih =>
    intro v a b x y ha hb
    simp only [V.at] at ha hb
    cases hs : v.child s with
    | none => rw [hs] at ha; cases ha
    | some c =>
      rw [hs] at ha hb
      have e1 : replace v (s :: l) x = v.put s (replace c l x) := by simp [replace, hs]
      have e2 : replace v (s :: m) y = v.put s (replace c m y) := by simp [replace, hs]
      rw [e1, e2]
      simp only [replace, child_put_self hs, put_twice]
      rw [ih x y ha hb]

/-- a path leads where it led before if the exchanged node is not on it -/
theorem addr_frame {v a : V} {ps : List Param} {l m : List Step} (w : V) (h : Addr v ps m) : Parts l m → v.at l = some a → Addr (replace v l w) ps m := by
  have hlen : ∀ (xs : List V) (l : List Step) (w : V), l ≠ [] → ∃ ys, replace (.arr xs) l w = .arr ys ∧ ys.length = xs.length := by
    intro xs l w hl
    match l, hl with
    | s :: l, _ =>
      simp only [replace]
      cases hc : (V.arr xs).child s with
      | none => exact ⟨xs, rfl, rfl⟩
      | some c => cases s with
        | key k => cases hc
        | idx i => exact ⟨_, rfl, by simp⟩
  have hobj : ∀ n kvs low (l : List Step) (w : V), l ≠ [] → ∃ kvs', replace (.obj n kvs low) l w = .obj n kvs' low := by
    intro n kvs low l w hl
    match l, hl with
    | s :: l, _ =>
      simp only [replace]
      cases hc : (V.obj n kvs low).child s with
      | none => exact ⟨kvs, rfl⟩
      | some c => cases s with
        | idx k => cases hc
        | key i => exact ⟨_, rfl⟩
  have hat : ∀ {v : V} {l : List Step} {s : Step} {m : List Step} {a : V} (w : V), Parts l (s :: m) → v.at l = some a → ∀ c, v.child s = some c →
      (∃ l', l = s :: l' ∧ Parts l' m ∧ c.at l' = some a ∧ (replace v l w).child s = some (replace c l' w)) ∨ (replace v l w).child s = some c := by
    intro v l s m a w hp ha c hc
    cases hp with
    | here t _ l _ hne =>
      right
      simp only [V.at] at ha
      cases ht : v.child t with
      | none => rw [ht] at ha; cases ha
      | some d => simp [replace, ht, child_put_ne hne, hc]
    | there _ l _ hp =>
      left
      simp only [V.at, hc] at ha
      exact ⟨l, rfl, hp, ha, by simp [replace, hc, child_put_self hc]⟩
  induction h generalizing l with
  | slice v q qs m _ ih => intro hp ha; exact .slice _ _ _ _ (ih hp ha)
  | key n kvs low k c h =>
    intro hp ha
    have hne : l ≠ [] := by rintro rfl; cases hp
    rcases hat w hp ha c h with ⟨l', rfl, hp', -, -⟩ | h'
    · cases hp'
    · obtain ⟨kvs', e⟩ := hobj n kvs low l w hne
      rw [e] at h' ⊢
      exact .key _ _ _ _ _ h'
  | idx xs p z i hz hi =>
    intro hp ha
    have hne : l ≠ [] := by rintro rfl; cases hp
    obtain ⟨ys, e, hl⟩ := hlen xs l w hne
    rw [e]
    exact .idx _ _ _ _ hz (by rw [hl]; exact hi)
  | keyCons n kvs low k c q qs m h1 h2 ih =>
    intro hp ha
    have hne : l ≠ [] := by rintro rfl; cases hp
    obtain ⟨kvs', e⟩ := hobj n kvs low l w hne
    rcases hat w hp ha c h1 with ⟨l', rfl, hp', ha', hc'⟩ | h'
    · rw [e] at hc' ⊢
      exact .keyCons _ _ _ _ _ _ _ _ hc' (ih hp' ha')
    · rw [e] at h' ⊢
      exact .keyCons _ _ _ _ _ _ _ _ h' h2
  | idxCons xs p z i c q qs m hz hi h1 h2 ih =>
    intro hp ha
    have hne : l ≠ [] := by rintro rfl; cases hp
    obtain ⟨ys, e, hl⟩ := hlen xs l w hne
    rcases hat w hp ha c h1 with ⟨l', rfl, hp', ha', hc'⟩ | h'
    · rw [e] at hc' ⊢
      exact .idxCons _ _ _ _ _ _ _ _ hz (by rw [hl]; exact hi) hc' (ih hp' ha')
    · rw [e] at h' ⊢
      exact .idxCons _ _ _ _ _ _ _ _ hz (by rw [hl]; exact hi) h' h2

/-- an edit below an existing node replaces that node -/
theorem edit_at {E : Env} {v a : V} {pre : List Param} {l : List Step} (hp : Plain pre) (hl : Addr v pre l) (ha : v.at l = some a) (e : Edit) (he : e.Fits a) :
    e.run E v pre = (replace v l (e.run E a []).1, (Option.map (l ++ ·)) <$> (e.run E a []).2) := by
  have hb : ∀ r : R (List Step), some <$> below l r = (Option.map (l ++ ·)) <$> (some <$> r) := fun r => by cases r <;> rfl
  have hu : ∀ r : R Unit, (fun _ => none) <$> r = (Option.map (l ++ ·)) <$> ((fun _ => none) <$> r : R (Option (List Step))) := fun r => by cases r <;> rfl
  cases e with
  | set ch q qs =>
    simp only [Edit.run, List.nil_append]
    rw [set_pre E hl hp ha q qs he ch, hb]
  | delete q qs =>
    simp only [Edit.run, List.nil_append]
    rw [delete_pre E hl hp ha q qs he, ← hu]
  | append beg ch q qs =>
    simp only [Edit.run, List.nil_append]
    rw [append_pre E hl hp ha q qs he.1 he.2 beg ch, hb]
  | insert after ch rest p =>
    simp only [Edit.run, List.nil_append]
    rw [insert_pre E hl hp ha rest p he.1 he.2.1 he.2.2 after ch, hb]

theorem edits_commute {E : Env} {v a b : V} {ps qs : List Param} {l m : List Step} (hp : Plain ps) (hq : Plain qs) (hl : Addr v ps l) (hm : Addr v qs m)
    (hlm : Parts l m) (ha : v.at l = some a) (hb : v.at m = some b) (e f : Edit) (he : e.Fits a) (hf : f.Fits b) :
    (f.run E (e.run E v ps).1 qs).1 = (e.run E (f.run E v qs).1 ps).1 ∧ (f.run E (e.run E v ps).1 qs).2 = (f.run E v qs).2 ∧
      (e.run E (f.run E v qs).1 ps).2 = (e.run E v ps).2 := by
  rw [edit_at hp hl ha e he, edit_at hq hm hb f hf]
  have h1 : (replace v l (e.run E a []).1).at m = some b := by rw [replace_frame _ ha m hlm]; exact hb
  have h2 : (replace v m (f.run E b []).1).at l = some a := by rw [replace_frame _ hb l (parts_symm hlm)]; exact ha
  rw [edit_at hq (addr_frame _ hm hlm ha) h1 f hf, edit_at hp (addr_frame _ hl (parts_symm hlm) hb) h2 e he]
  exact ⟨replace_comm hlm _ _ ha hb, rfl, rfl⟩

end JV
