import Verif.Model.Holder
import Verif.Proofs.StdJson
import Verif.Proofs.Unambiguous
/-! Go data that holds values: what is written for it, and what is read back. -/
namespace JV
open Spec

/-! ### writing -/

/-- the pieces of an array written one after another -/
theorem elems_cons {t u : Bytes} {j : J} {js : List J} (h : JVal t j) (hr : js = [] ∧ u = [] ∨ ∃ u', u = 0x2C :: u' ∧ JElems u' js) : JElems (t ++ u) (j :: js) := by
  have w0 : Ws [] := fun c hc => by cases hc
  rcases hr with ⟨rfl, rfl⟩ | ⟨u', rfl, h'⟩
  · simpa using JElems.one [] t [] j w0 h w0
  · simpa using JElems.cons [] t [] u' j js w0 h w0 h'

theorem mems_cons {k d t u : Bytes} {j : J} {js : List Mem} (hk : JStr k d) (h : JVal t j) (hr : js = [] ∧ u = [] ∨ ∃ u', u = 0x2C :: u' ∧ JMems u' js) :
    JMems (k ++ 0x3A :: t ++ u) (⟨d, j⟩ :: js) := by
  have w0 : Ws [] := fun c hc => by cases hc
  rcases hr with ⟨rfl, rfl⟩ | ⟨u', rfl, h'⟩
  · simpa using JMems.one [] k [] [] t [] d j w0 hk w0 w0 h w0
  · simpa using JMems.cons [] k [] [] t [] d u' j js w0 hk w0 w0 h w0 h'

theorem jval_list {t : Bytes} {js : List J} (h : js = [] ∧ t = [] ∨ JElems t js) : JVal (0x5B :: t ++ [0x5D]) (.arr js) := by
  rcases h with ⟨rfl, rfl⟩ | h
  · exact .arrNil [] (fun c hc => by cases hc)
  · exact .arr t js h

theorem jval_named {t : Bytes} {js : List Mem} (h : js = [] ∧ t = [] ∨ JMems t js) : JVal (0x7B :: t ++ [0x7D]) (.obj js) := by
  rcases h with ⟨rfl, rfl⟩ | h
  · exact .objNil [] (fun c hc => by cases hc)
  · exact .obj t js h

/-- what a place needs so that something is written there -/
def Written (f : V → R Bytes) (P : Site → V → J → Prop) (s : Site) (v : V) : Prop :=
  if s = .loose then P s v (.obj []) else ∃ t j, f v = .ok t ∧ JVal t j ∧ P s v j

mutual
theorem enc_stands {f : V → R Bytes} {P : Site → V → J → Prop} : (a : Bool) → (h : Hold) → Lits h → Each (Written f P) a h →
    ∃ t j, encHold f a h = .ok t ∧ JVal t j ∧ Stands P a h j
  | a, .ptr v, _, he => he
  | a, .own v, _, he => by
    cases a with
    | true => exact he
    | false =>
      refine ⟨_, .obj [], rfl, .objNil [] (fun c hc => by cases hc), ?_⟩
      exact he
  | a, .list k xs, hl, he => by
    obtain ⟨t, js, h1, -, h3, h4⟩ := encElems_stands (elemAddr k a) xs hl he
    refine ⟨_, .arr js, ?_, jval_list h3, js, rfl, h4⟩
    show (encElems f (elemAddr k a) true xs).bind _ = _
    rw [h1]; rfl
  | a, .named k ms, hl, he => by
    obtain ⟨t, js, h1, -, h3, h4⟩ := encFields_stands (fieldAddr k a) ms hl he
    refine ⟨_, .obj js, ?_, jval_named h3, js, rfl, h4⟩
    show (encFields f (fieldAddr k a) true ms).bind _ = _
    rw [h1]; rfl
theorem encElems_stands {f : V → R Bytes} {P : Site → V → J → Prop} : (a : Bool) → (xs : HoldList) → LitsL false xs → EachL (Written f P) a xs →
    ∃ t js, encElems f a true xs = .ok t ∧ (∃ u, encElems f a false xs = .ok u ∧ (js = [] ∧ u = [] ∨ ∃ u', u = 0x2C :: u' ∧ JElems u' js)) ∧
      (js = [] ∧ t = [] ∨ JElems t js) ∧ StandsL P a xs js
  | a, .nil, _, _ => ⟨[], [], rfl, ⟨[], rfl, .inl ⟨rfl, rfl⟩⟩, .inl ⟨rfl, rfl⟩, rfl⟩
  | a, .cons key lit x xs, hl, he => by
    obtain ⟨t, j, h1, h2, h3⟩ := enc_stands a x hl.2.1 he.1
    obtain ⟨-, js, -, ⟨u, i2, i3⟩, -, i5⟩ := encElems_stands a xs hl.2.2 he.2
    have hx := elems_cons h2 i3
    refine ⟨t ++ u, j :: js, ?_, ⟨0x2C :: (t ++ u), ?_, .inr ⟨_, rfl, hx⟩⟩, .inr hx, j, js, rfl, h3, i5⟩
    · unfold encElems; rw [h1, i2]; simp [R.bind_ok]
    · unfold encElems; rw [h1, i2]; simp [R.bind_ok]
theorem encFields_stands {f : V → R Bytes} {P : Site → V → J → Prop} : (a : Bool) → (xs : HoldList) → LitsL true xs → EachL (Written f P) a xs →
    ∃ t js, encFields f a true xs = .ok t ∧ (∃ u, encFields f a false xs = .ok u ∧ (js = [] ∧ u = [] ∨ ∃ u', u = 0x2C :: u' ∧ JMems u' js)) ∧
      (js = [] ∧ t = [] ∨ JMems t js) ∧ StandsM P a xs js
  | a, .nil, _, _ => ⟨[], [], rfl, ⟨[], rfl, .inl ⟨rfl, rfl⟩⟩, .inl ⟨rfl, rfl⟩, rfl⟩
  | a, .cons key lit x xs, hl, he => by
    obtain ⟨t, j, h1, h2, h3⟩ := enc_stands a x hl.2.1 he.1
    obtain ⟨-, js, -, ⟨u, i2, i3⟩, -, i5⟩ := encFields_stands a xs hl.2.2 he.2
    have hx := mems_cons (hl.1 rfl) h2 i3
    refine ⟨lit ++ 0x3A :: t ++ u, ⟨key, j⟩ :: js, ?_, ⟨0x2C :: (lit ++ 0x3A :: t ++ u), ?_, .inr ⟨_, rfl, hx⟩⟩, .inr hx, j, js, rfl, h3, i5⟩
    · unfold encFields; rw [h1, i2]; simp [R.bind_ok]
    · unfold encFields; rw [h1, i2]; simp [R.bind_ok]
end

mutual
/-- if something cannot be written, nothing is -/
theorem enc_ok {f : V → R Bytes} : (a : Bool) → (h : Hold) → (t : Bytes) → encHold f a h = .ok t → Each (fun s v => s ≠ .loose → ∃ t, f v = .ok t) a h
  | a, .ptr v, t, h => fun _ => ⟨t, h⟩
  | a, .own v, t, h => fun hs => by
    cases a with
    | true => exact ⟨t, h⟩
    | false => exact absurd rfl hs
  | a, .list k xs, t, h => by
    unfold encHold at h
    cases hx : encElems f (elemAddr k a) true xs with
    | ok u => exact encElems_ok _ _ xs u hx
    | _ => rw [hx] at h; cases h
  | a, .named k ms, t, h => by
    unfold encHold at h
    cases hx : encFields f (fieldAddr k a) true ms with
    | ok u => exact encFields_ok _ _ ms u hx
    | _ => rw [hx] at h; cases h
theorem encElems_ok {f : V → R Bytes} : (a b : Bool) → (h : HoldList) → (t : Bytes) → encElems f a b h = .ok t → EachL (fun s v => s ≠ .loose → ∃ t, f v = .ok t) a h
  | a, b, .nil, t, h => trivial
  | a, b, .cons key lit x xs, t, h => by
    unfold encElems at h
    cases hx : encHold f a x with
    | ok u =>
      cases hy : encElems f a false xs with
      | ok u' => exact ⟨enc_ok a x u hx, encElems_ok a false xs u' hy⟩
      | _ => rw [hx, hy] at h; cases h
    | _ => rw [hx] at h; cases h
theorem encFields_ok {f : V → R Bytes} : (a b : Bool) → (h : HoldList) → (t : Bytes) → encFields f a b h = .ok t → EachL (fun s v => s ≠ .loose → ∃ t, f v = .ok t) a h
  | a, b, .nil, t, h => trivial
  | a, b, .cons key lit x xs, t, h => by
    unfold encFields at h
    cases hx : encHold f a x with
    | ok u =>
      cases hy : encFields f a false xs with
      | ok u' => exact ⟨enc_ok a x u hx, encFields_ok a false xs u' hy⟩
      | _ => rw [hx, hy] at h; cases h
    | _ => rw [hx] at h; cases h
end

mutual
theorem Each.mono {P Q : Site → V → Prop} (hPQ : ∀ s v, P s v → Q s v) : (a : Bool) → (h : Hold) → Each P a h → Each Q a h
  | _, .ptr v, h => hPQ _ _ h
  | _, .own v, h => hPQ _ _ h
  | a, .list k xs, h => EachL.mono hPQ (elemAddr k a) xs h
  | a, .named k xs, h => EachL.mono hPQ (fieldAddr k a) xs h
theorem EachL.mono {P Q : Site → V → Prop} (hPQ : ∀ s v, P s v → Q s v) : (a : Bool) → (h : HoldList) → EachL P a h → EachL Q a h
  | _, .nil, _ => trivial
  | a, .cons _ _ x xs, h => ⟨Each.mono hPQ a x h.1, EachL.mono hPQ a xs h.2⟩
end

/-! ### depth -/

mutual
theorem stands_depth {P : Site → V → J → Prop} (hP : ∀ s v j n, P s v j → Nests n v → j.depth ≤ n) : (a : Bool) → (h : Hold) → (j : J) → (n : Nat) →
    Stands P a h j → HNests n h → j.depth ≤ n
  | a, .ptr v, j, n, h1, h2 => hP _ _ _ _ h1 h2
  | a, .own v, j, n, h1, h2 => hP _ _ _ _ h1 h2
  | a, .list k xs, j, n, ⟨js, e, h1⟩, h2 => by
    have := standsL_depth hP _ xs js _ h1 h2.2
    have h0 := h2.1
    subst e
    simp only [J.depth]; omega
  | a, .named k xs, j, n, ⟨js, e, h1⟩, h2 => by
    have := standsM_depth hP _ xs js _ h1 h2.2
    have h0 := h2.1
    subst e
    simp only [J.depth]; omega
theorem standsL_depth {P : Site → V → J → Prop} (hP : ∀ s v j n, P s v j → Nests n v → j.depth ≤ n) : (a : Bool) → (h : HoldList) → (js : List J) → (n : Nat) →
    StandsL P a h js → HNestsL n h → depthL js ≤ n
  | a, .nil, js, n, h1, h2 => by cases h1; simp [depthL]
  | a, .cons _ _ x xs, js, n, ⟨j, rest, e, h1, h3⟩, h2 => by
    subst e
    have := stands_depth hP a x j n h1 h2.1
    have := standsL_depth hP a xs rest n h3 h2.2
    simp only [depthL]; omega
theorem standsM_depth {P : Site → V → J → Prop} (hP : ∀ s v j n, P s v j → Nests n v → j.depth ≤ n) : (a : Bool) → (h : HoldList) → (js : List Mem) → (n : Nat) →
    StandsM P a h js → HNestsL n h → depthM js ≤ n
  | a, .nil, js, n, h1, h2 => by cases h1; simp [depthM]
  | a, .cons _ _ x xs, js, n, ⟨j, rest, e, h1, h3⟩, h2 => by
    subst e
    have := stands_depth hP a x j n h1 h2.1
    have := standsM_depth hP a xs rest n h3 h2.2
    simp only [depthM]; omega
end

/-! ### reading -/

/-- what a place needs so that it is written and read back, with `Q` between the two -/
def ComesBack (f : V → R Bytes) (u : Bytes → V → Prop) (Q : Site → V → V → Prop) (s : Site) (v : V) : Prop :=
  s ≠ .loose ∧ ∃ t j w, f v = .ok t ∧ JVal t j ∧ (if s = .ptr ∧ t = nullText then w = .nilp else u t w) ∧ Q s v w

theorem items_cons {t u : Bytes} {j : J} {ts : List Bytes} (h : JVal t j) (hr : ts = [] ∧ u = [] ∨ ∃ u', u = 0x2C :: u' ∧ Items u' ts) : Items (t ++ u) (t :: ts) := by
  have w0 : Ws [] := fun c hc => by cases hc
  rcases hr with ⟨rfl, rfl⟩ | ⟨u', rfl, h'⟩
  · simpa using Items.one [] t [] j w0 h w0
  · simpa using Items.cons [] t [] u' j ts w0 h w0 h'

theorem fields_cons {k d t u : Bytes} {j : J} {fs : List (Bytes × Bytes)} (hk : JStr k d) (h : JVal t j) (hr : fs = [] ∧ u = [] ∨ ∃ u', u = 0x2C :: u' ∧ Fields u' fs) :
    Fields (k ++ 0x3A :: t ++ u) ((d, t) :: fs) := by
  have w0 : Ws [] := fun c hc => by cases hc
  rcases hr with ⟨rfl, rfl⟩ | ⟨u', rfl, h'⟩
  · simpa using Fields.one [] k [] [] t [] d j w0 hk w0 w0 h w0
  · simpa using Fields.cons [] k [] [] t [] d u' j fs w0 hk w0 w0 h w0 h'

theorem decFields_mono {u : Bytes → V → Prop} : (xs : HoldList) → (fs fs' : List (Bytes × Bytes)) → (ys : HoldList) → fs ⊆ fs' → DecFields u xs fs ys → DecFields u xs fs' ys
  | .nil, _, _, _, _, h => h
  | .cons _ _ _ xs, fs, fs', ys, hs, ⟨t, y, zs, h1, h2, h3, h4⟩ => ⟨t, y, zs, hs h1, h2, h3, decFields_mono xs fs fs' zs hs h4⟩

mutual
theorem enc_returns {f : V → R Bytes} {u : Bytes → V → Prop} {Q : Site → V → V → Prop} : (a : Bool) → (h : Hold) → Lits h → Distinct h → Each (ComesBack f u Q) a h →
    ∃ t j h', encHold f a h = .ok t ∧ JVal t j ∧ DecHold u h t h' ∧ Matches Q h h'
  | a, .ptr v, _, _, ⟨_, t, j, w, h1, h2, h3, h4⟩ => ⟨t, j, .ptr w, h1, h2, ⟨w, rfl, by simpa using h3⟩, w, rfl, h4⟩
  | a, .own v, _, _, ⟨hs, t, j, w, h1, h2, h3, h4⟩ => by
    cases a with
    | true => exact ⟨t, j, .own w, h1, h2, ⟨w, rfl, by simpa [siteOf] using h3⟩, w, rfl, h4⟩
    | false => exact absurd rfl hs
  | a, .list k xs, hl, hd, he => by
    obtain ⟨t, js, ts, ys, h1, -, h3, h4, h5⟩ := encElems_returns (elemAddr k a) xs hl hd he
    refine ⟨_, .arr js, .list k ys, ?_, jval_list (h3.imp (fun h => ⟨h.2.1, h.2.2⟩) (fun h => h.1)), ⟨ts, ys, rfl, ⟨t, rfl, ?_⟩, h4⟩, ys, rfl, h5⟩
    · show (encElems f (elemAddr k a) true xs).bind _ = _
      rw [h1]; rfl
    · rcases h3 with ⟨h, -, rfl⟩ | h
      · exact .inl ⟨(fun c hc => by cases hc), h⟩
      · exact .inr h.2
  | a, .named k ms, hl, hd, he => by
    obtain ⟨t, js, fs, ys, h1, -, h3, h4, h5, h6⟩ := encFields_returns (fieldAddr k a) ms hl hd.2 he
    refine ⟨_, .obj js, .named k ys, ?_, jval_named (h3.imp (fun h => ⟨h.2.1, h.2.2⟩) (fun h => h.1)),
      ⟨fs, ys, rfl, ⟨t, rfl, ?_⟩, h6 ▸ hd.1, fun f hf => h6 ▸ List.mem_map_of_mem hf, h4⟩, ys, rfl, h5⟩
    · show (encFields f (fieldAddr k a) true ms).bind _ = _
      rw [h1]; rfl
    · rcases h3 with ⟨h, -, rfl⟩ | h
      · exact .inl ⟨(fun c hc => by cases hc), h⟩
      · exact .inr h.2
theorem encElems_returns {f : V → R Bytes} {u : Bytes → V → Prop} {Q : Site → V → V → Prop} : (a : Bool) → (xs : HoldList) → LitsL false xs → DistinctL xs → EachL (ComesBack f u Q) a xs →
    ∃ t js ts ys, encElems f a true xs = .ok t ∧ (∃ u, encElems f a false xs = .ok u ∧ (ts = [] ∧ js = [] ∧ u = [] ∨ ∃ u', u = 0x2C :: u' ∧ JElems u' js ∧ Items u' ts)) ∧
      (ts = [] ∧ js = [] ∧ t = [] ∨ JElems t js ∧ Items t ts) ∧ DecElems u xs ts ys ∧ MatchesL Q xs ys
  | a, .nil, _, _, _ => ⟨[], [], [], .nil, rfl, ⟨[], rfl, .inl ⟨rfl, rfl, rfl⟩⟩, .inl ⟨rfl, rfl, rfl⟩, ⟨rfl, rfl⟩, rfl⟩
  | a, .cons key lit x xs, hl, hd, he => by
    obtain ⟨t, j, y, h1, h2, h3, h4⟩ := enc_returns a x hl.2.1 hd.1 he.1
    obtain ⟨-, js, ts, ys, -, ⟨u, i2, i3⟩, -, i4, i5⟩ := encElems_returns a xs hl.2.2 hd.2 he.2
    have hx := elems_cons h2 (i3.imp (fun h => ⟨h.2.1, h.2.2⟩) (fun ⟨u', e, h, _⟩ => ⟨u', e, h⟩))
    have hz := items_cons h2 (i3.imp (fun h => ⟨h.1, h.2.2⟩) (fun ⟨u', e, _, h⟩ => ⟨u', e, h⟩))
    refine ⟨t ++ u, j :: js, t :: ts, .cons key lit y ys, ?_, ⟨0x2C :: (t ++ u), ?_, .inr ⟨_, rfl, hx, hz⟩⟩, .inr ⟨hx, hz⟩, ⟨t, ts, y, ys, rfl, rfl, h3, i4⟩, y, ys, rfl, h4, i5⟩
    · unfold encElems; rw [h1, i2]; simp [R.bind_ok]
    · unfold encElems; rw [h1, i2]; simp [R.bind_ok]
theorem encFields_returns {f : V → R Bytes} {u : Bytes → V → Prop} {Q : Site → V → V → Prop} : (a : Bool) → (xs : HoldList) → LitsL true xs → DistinctL xs → EachL (ComesBack f u Q) a xs →
    ∃ t js fs ys, encFields f a true xs = .ok t ∧ (∃ u, encFields f a false xs = .ok u ∧ (fs = [] ∧ js = [] ∧ u = [] ∨ ∃ u', u = 0x2C :: u' ∧ JMems u' js ∧ Fields u' fs)) ∧
      (fs = [] ∧ js = [] ∧ t = [] ∨ JMems t js ∧ Fields t fs) ∧ DecFields u xs fs ys ∧ MatchesL Q xs ys ∧ fs.map (·.1) = xs.keys
  | a, .nil, _, _, _ => ⟨[], [], [], .nil, rfl, ⟨[], rfl, .inl ⟨rfl, rfl, rfl⟩⟩, .inl ⟨rfl, rfl, rfl⟩, rfl, rfl, rfl⟩
  | a, .cons key lit x xs, hl, hd, he => by
    obtain ⟨t, j, y, h1, h2, h3, h4⟩ := enc_returns a x hl.2.1 hd.1 he.1
    obtain ⟨-, js, fs, ys, -, ⟨u, i2, i3⟩, -, i4, i5, i6⟩ := encFields_returns a xs hl.2.2 hd.2 he.2
    have hx := mems_cons (hl.1 rfl) h2 (i3.imp (fun h => ⟨h.2.1, h.2.2⟩) (fun ⟨u', e, h, _⟩ => ⟨u', e, h⟩))
    have hz := fields_cons (hl.1 rfl) h2 (i3.imp (fun h => ⟨h.1, h.2.2⟩) (fun ⟨u', e, _, h⟩ => ⟨u', e, h⟩))
    refine ⟨lit ++ 0x3A :: t ++ u, ⟨key, j⟩ :: js, (key, t) :: fs, .cons key lit y ys, ?_, ⟨0x2C :: (lit ++ 0x3A :: t ++ u), ?_, .inr ⟨_, rfl, hx, hz⟩⟩, .inr ⟨hx, hz⟩,
      ⟨t, y, ys, by simp, rfl, h3, decFields_mono xs fs _ ys (by simp) i4⟩, ⟨y, ys, rfl, h4, i5⟩, by simp [HoldList.keys, i6]⟩
    · unfold encFields; rw [h1, i2]; simp [R.bind_ok]
    · unfold encFields; rw [h1, i2]; simp [R.bind_ok]
end

/-! ### a text is read in one way only -/

theorem _root_.Spec.Items.elems {u : Bytes} {ts : List Bytes} (h : Items u ts) : ∃ js, JElems u js := by
  induction h with
  | one w1 t w2 j h1 h2 h3 => exact ⟨_, .one w1 t w2 j h1 h2 h3⟩
  | cons w1 t w2 r j ts h1 h2 h3 _ ih => obtain ⟨js, ih⟩ := ih; exact ⟨_, .cons w1 t w2 r j js h1 h2 h3 ih⟩

theorem _root_.Spec.Fields.mems {u : Bytes} {ts : List (Bytes × Bytes)} (h : Fields u ts) : ∃ js, JMems u js := by
  induction h with
  | one w1 k w2 w3 t w4 d j h1 hk h2 h3 h4 h5 => exact ⟨_, .one w1 k w2 w3 t w4 d j h1 hk h2 h3 h4 h5⟩
  | cons w1 k w2 w3 t w4 d r j fs h1 hk h2 h3 h4 h5 _ ih => obtain ⟨js, ih⟩ := ih; exact ⟨_, .cons w1 k w2 w3 t w4 d r j js h1 hk h2 h3 h4 h5 ih⟩

theorem items_unique {t : Bytes} {xs : List Bytes} (h : Items t xs) : ∀ (xs' : List Bytes) (t' r r' : Bytes), Items t' xs' → t ++ 0x5D :: r = t' ++ 0x5D :: r' → t = t' ∧ xs = xs' := by
  induction h with
  | one w1 t w2 v h1 ht h2 =>
    intro xs' t' r r' h' he
    cases h' with
    | one w1' t' w2' v' h1' ht' h2' =>
      replace he := ws_split h1 h1' (jval_solid ht (w2 ++ 0x5D :: r)) (jval_solid ht' (w2' ++ 0x5D :: r')) (by simpa using he)
      obtain ⟨rfl, he⟩ := he
      obtain ⟨rfl, rfl⟩ := jval_unique ht _ _ _ _ ht' (NumEnd_ws h2 _ notNumChar.1 r) (NumEnd_ws h2' _ notNumChar.1 r') he
      obtain ⟨rfl, _⟩ := ws_split h2 h2' (solid_cons notWs.1 r) (solid_cons notWs.1 r') (List.append_cancel_left he)
      exact ⟨rfl, rfl⟩
    | cons w1' t' w2' ts' v' vs' h1' ht' h2' _ =>
      replace he := ws_split h1 h1' (jval_solid ht (w2 ++ 0x5D :: r)) (jval_solid ht' (w2' ++ 0x2C :: ts' ++ 0x5D :: r')) (by simpa using he)
      obtain ⟨rfl, he⟩ := he
      obtain ⟨rfl, rfl⟩ := jval_unique ht _ _ _ _ ht' (NumEnd_ws h2 _ notNumChar.1 r) (by simpa using NumEnd_ws h2' _ notNumChar.2.2 (ts' ++ 0x5D :: r')) he
      have := ws_split h2 h2' (solid_cons notWs.1 r) (solid_cons notWs.2.2.1 (ts' ++ 0x5D :: r')) (by simpa using he)
      exact absurd (List.cons.inj this.2).1 (by decide)
  | cons w1 t w2 ts v vs h1 ht h2 _ ihs =>
    intro xs' t' r r' h' he
    cases h' with
    | one w1' t' w2' v' h1' ht' h2' =>
      replace he := ws_split h1 h1' (jval_solid ht (w2 ++ 0x2C :: ts ++ 0x5D :: r)) (jval_solid ht' (w2' ++ 0x5D :: r')) (by simpa using he)
      obtain ⟨rfl, he⟩ := he
      obtain ⟨rfl, rfl⟩ := jval_unique ht _ _ _ _ ht' (by simpa using NumEnd_ws h2 _ notNumChar.2.2 (ts ++ 0x5D :: r)) (NumEnd_ws h2' _ notNumChar.1 r') he
      have := ws_split h2 h2' (solid_cons notWs.2.2.1 (ts ++ 0x5D :: r)) (solid_cons notWs.1 r') (by simpa using he)
      exact absurd (List.cons.inj this.2).1 (by decide)
    | cons w1' t' w2' ts' v' vs' h1' ht' h2' hs' =>
      replace he := ws_split h1 h1' (jval_solid ht (w2 ++ 0x2C :: ts ++ 0x5D :: r)) (jval_solid ht' (w2' ++ 0x2C :: ts' ++ 0x5D :: r')) (by simpa using he)
      obtain ⟨rfl, he⟩ := he
      obtain ⟨rfl, rfl⟩ := jval_unique ht _ _ _ _ ht' (by simpa using NumEnd_ws h2 _ notNumChar.2.2 (ts ++ 0x5D :: r)) (by simpa using NumEnd_ws h2' _ notNumChar.2.2 (ts' ++ 0x5D :: r')) he
      replace he := ws_split h2 h2' (solid_cons notWs.2.2.1 (ts ++ 0x5D :: r)) (solid_cons notWs.2.2.1 (ts' ++ 0x5D :: r')) (by simpa using he)
      obtain ⟨rfl, he⟩ := he
      obtain ⟨rfl, rfl⟩ := ihs _ _ r r' hs' (List.cons.inj he).2
      exact ⟨rfl, rfl⟩

theorem fields_unique {t : Bytes} {xs : List (Bytes × Bytes)} (h : Fields t xs) : ∀ (xs' : List (Bytes × Bytes)) (t' r r' : Bytes), Fields t' xs' →
    t ++ 0x7D :: r = t' ++ 0x7D :: r' → t = t' ∧ xs = xs' := by
  induction h with
  | one w1 k w2 w3 t w4 d v h1 hk h2 h3 ht h4 =>
    intro xs' t' r r' h' he
    cases h' with
    | one w1' k' w2' w3' t' w4' d' v' h1' hk' h2' h3' ht' h4' =>
      replace he := ws_split h1 h1' (jstr_solid hk (w2 ++ 0x3A :: (w3 ++ t ++ w4 ++ 0x7D :: r))) (jstr_solid hk' (w2' ++ 0x3A :: (w3' ++ t' ++ w4' ++ 0x7D :: r'))) (by simpa using he)
      obtain ⟨rfl, he⟩ := he
      obtain ⟨rfl, rfl⟩ := jstr_unique hk hk' he
      replace he := ws_split h2 h2' (solid_cons notWs.2.2.2 _) (solid_cons notWs.2.2.2 _) (List.append_cancel_left he)
      obtain ⟨rfl, he⟩ := he
      replace he := ws_split h3 h3' (jval_solid ht (w4 ++ 0x7D :: r)) (jval_solid ht' (w4' ++ 0x7D :: r')) (by simpa using (List.cons.inj he).2)
      obtain ⟨rfl, he⟩ := he
      obtain ⟨rfl, rfl⟩ := jval_unique ht _ _ _ _ ht' (NumEnd_ws h4 _ notNumChar.2.1 r) (NumEnd_ws h4' _ notNumChar.2.1 r') he
      obtain ⟨rfl, _⟩ := ws_split h4 h4' (solid_cons notWs.2.1 r) (solid_cons notWs.2.1 r') (List.append_cancel_left he)
      exact ⟨rfl, rfl⟩
    | cons w1' k' w2' w3' t' w4' d' ts' v' vs' h1' hk' h2' h3' ht' h4' hs' =>
      replace he := ws_split h1 h1' (jstr_solid hk (w2 ++ 0x3A :: (w3 ++ t ++ w4 ++ 0x7D :: r))) (jstr_solid hk' (w2' ++ 0x3A :: (w3' ++ t' ++ w4' ++ 0x2C :: ts' ++ 0x7D :: r'))) (by simpa using he)
      obtain ⟨rfl, he⟩ := he
      obtain ⟨rfl, rfl⟩ := jstr_unique hk hk' he
      replace he := ws_split h2 h2' (solid_cons notWs.2.2.2 _) (solid_cons notWs.2.2.2 _) (List.append_cancel_left he)
      obtain ⟨rfl, he⟩ := he
      replace he := ws_split h3 h3' (jval_solid ht (w4 ++ 0x7D :: r)) (jval_solid ht' (w4' ++ 0x2C :: ts' ++ 0x7D :: r')) (by simpa using (List.cons.inj he).2)
      obtain ⟨rfl, he⟩ := he
      obtain ⟨rfl, rfl⟩ := jval_unique ht _ _ _ _ ht' (NumEnd_ws h4 _ notNumChar.2.1 r) (by simpa using NumEnd_ws h4' _ notNumChar.2.2 (ts' ++ 0x7D :: r')) he
      have := ws_split h4 h4' (solid_cons notWs.2.1 r) (solid_cons notWs.2.2.1 (ts' ++ 0x7D :: r')) (by simpa using he)
      exact absurd (List.cons.inj this.2).1 (by decide)
  | cons w1 k w2 w3 t w4 d ts v vs h1 hk h2 h3 ht h4 _ ihs =>
    intro xs' t' r r' h' he
    cases h' with
    | one w1' k' w2' w3' t' w4' d' v' h1' hk' h2' h3' ht' h4' =>
      replace he := ws_split h1 h1' (jstr_solid hk (w2 ++ 0x3A :: (w3 ++ t ++ w4 ++ 0x2C :: ts ++ 0x7D :: r))) (jstr_solid hk' (w2' ++ 0x3A :: (w3' ++ t' ++ w4' ++ 0x7D :: r'))) (by simpa using he)
      obtain ⟨rfl, he⟩ := he
      obtain ⟨rfl, rfl⟩ := jstr_unique hk hk' he
      replace he := ws_split h2 h2' (solid_cons notWs.2.2.2 _) (solid_cons notWs.2.2.2 _) (List.append_cancel_left he)
      obtain ⟨rfl, he⟩ := he
      replace he := ws_split h3 h3' (jval_solid ht (w4 ++ 0x2C :: ts ++ 0x7D :: r)) (jval_solid ht' (w4' ++ 0x7D :: r')) (by simpa using (List.cons.inj he).2)
      obtain ⟨rfl, he⟩ := he
      obtain ⟨rfl, rfl⟩ := jval_unique ht _ _ _ _ ht' (by simpa using NumEnd_ws h4 _ notNumChar.2.2 (ts ++ 0x7D :: r)) (NumEnd_ws h4' _ notNumChar.2.1 r') he
      have := ws_split h4 h4' (solid_cons notWs.2.2.1 (ts ++ 0x7D :: r)) (solid_cons notWs.2.1 r') (by simpa using he)
      exact absurd (List.cons.inj this.2).1 (by decide)
    | cons w1' k' w2' w3' t' w4' d' ts' v' vs' h1' hk' h2' h3' ht' h4' hs' =>
      replace he := ws_split h1 h1' (jstr_solid hk (w2 ++ 0x3A :: (w3 ++ t ++ w4 ++ 0x2C :: ts ++ 0x7D :: r))) (jstr_solid hk' (w2' ++ 0x3A :: (w3' ++ t' ++ w4' ++ 0x2C :: ts' ++ 0x7D :: r'))) (by simpa using he)
      obtain ⟨rfl, he⟩ := he
      obtain ⟨rfl, rfl⟩ := jstr_unique hk hk' he
      replace he := ws_split h2 h2' (solid_cons notWs.2.2.2 _) (solid_cons notWs.2.2.2 _) (List.append_cancel_left he)
      obtain ⟨rfl, he⟩ := he
      replace he := ws_split h3 h3' (jval_solid ht (w4 ++ 0x2C :: ts ++ 0x7D :: r)) (jval_solid ht' (w4' ++ 0x2C :: ts' ++ 0x7D :: r')) (by simpa using (List.cons.inj he).2)
      obtain ⟨rfl, he⟩ := he
      obtain ⟨rfl, rfl⟩ := jval_unique ht _ _ _ _ ht' (by simpa using NumEnd_ws h4 _ notNumChar.2.2 (ts ++ 0x7D :: r)) (by simpa using NumEnd_ws h4' _ notNumChar.2.2 (ts' ++ 0x7D :: r')) he
      replace he := ws_split h4 h4' (solid_cons notWs.2.2.1 (ts ++ 0x7D :: r)) (solid_cons notWs.2.2.1 (ts' ++ 0x7D :: r')) (by simpa using he)
      obtain ⟨rfl, he⟩ := he
      obtain ⟨rfl, rfl⟩ := ihs _ _ r r' hs' (List.cons.inj he).2
      exact ⟨rfl, rfl⟩

theorem arrayOf_unique {t : Bytes} {ts ts' : List Bytes} (h : ArrayOf t ts) (h' : ArrayOf t ts') : ts = ts' := by
  obtain ⟨u, rfl, h⟩ := h
  obtain ⟨u', he, h'⟩ := h'
  have he : u ++ 0x5D :: [] = u' ++ 0x5D :: [] := by simpa using he
  rcases h with ⟨hw, rfl⟩ | h
  · rcases h' with ⟨-, rfl⟩ | h'
    · rfl
    · obtain ⟨js, hj⟩ := h'.elems
      exact absurd he (ws_not_elems hw hj)
  · rcases h' with ⟨hw, rfl⟩ | h'
    · obtain ⟨js, hj⟩ := h.elems
      exact absurd he.symm (ws_not_elems hw hj)
    · exact (items_unique h _ _ _ _ h' he).2

theorem objectOf_unique {t : Bytes} {ts ts' : List (Bytes × Bytes)} (h : ObjectOf t ts) (h' : ObjectOf t ts') : ts = ts' := by
  obtain ⟨u, rfl, h⟩ := h
  obtain ⟨u', he, h'⟩ := h'
  have he : u ++ 0x7D :: [] = u' ++ 0x7D :: [] := by simpa using he
  rcases h with ⟨hw, rfl⟩ | h
  · rcases h' with ⟨-, rfl⟩ | h'
    · rfl
    · obtain ⟨js, hj⟩ := h'.mems
      exact absurd he (ws_not_mems hw hj)
  · rcases h' with ⟨hw, rfl⟩ | h'
    · obtain ⟨js, hj⟩ := h.mems
      exact absurd he.symm (ws_not_mems hw hj)
    · exact (fields_unique h _ _ _ _ h' he).2

theorem nodup_snd {k a b : Bytes} : ∀ {fs : List (Bytes × Bytes)}, (fs.map (·.1)).Nodup → (k, a) ∈ fs → (k, b) ∈ fs → a = b
  | [], _, h, _ => by cases h
  | (k', c) :: fs, hn, h1, h2 => by
    simp only [List.map_cons, List.nodup_cons] at hn
    simp only [List.mem_cons, Prod.mk.injEq] at h1 h2
    rcases h1 with ⟨rfl, rfl⟩ | h1
    · rcases h2 with ⟨-, rfl⟩ | h2
      · rfl
      · exact absurd (List.mem_map_of_mem (f := (·.1)) h2) hn.1
    · rcases h2 with ⟨rfl, rfl⟩ | h2
      · exact absurd (List.mem_map_of_mem (f := (·.1)) h1) hn.1
      · exact nodup_snd hn.2 h1 h2

mutual
theorem dec_unique {u : Bytes → V → Prop} (hu : ∀ t w w', u t w → u t w' → w = w') : (h : Hold) → (t : Bytes) → (x y : Hold) → DecHold u h t x → DecHold u h t y → x = y
  | .ptr _, t, x, y, ⟨w, e, h1⟩, ⟨w', e', h2⟩ => by
    subst e; subst e'
    split at h1
    · rw [if_pos ‹_›] at h2; rw [h1, h2]
    · rw [if_neg ‹_›] at h2; rw [hu _ _ _ h1 h2]
  | .own _, t, x, y, ⟨w, e, h1⟩, ⟨w', e', h2⟩ => by rw [e, e', hu _ _ _ h1 h2]
  | .list k xs, t, x, y, ⟨ts, ys, e, h1, h2⟩, ⟨ts', ys', e', h1', h2'⟩ => by
    obtain rfl := arrayOf_unique h1 h1'
    rw [e, e', decElems_unique hu xs ts ys ys' h2 h2']
  | .named k xs, t, x, y, ⟨ts, ys, e, h1, hn, _, h2⟩, ⟨ts', ys', e', h1', _, _, h2'⟩ => by
    obtain rfl := objectOf_unique h1 h1'
    rw [e, e', decFields_unique hu xs ts hn ys ys' h2 h2']
theorem decElems_unique {u : Bytes → V → Prop} (hu : ∀ t w w', u t w → u t w' → w = w') : (h : HoldList) → (ts : List Bytes) → (x y : HoldList) → DecElems u h ts x → DecElems u h ts y → x = y
  | .nil, ts, x, y, h1, h2 => by rw [h1.2, h2.2]
  | .cons key lit x xs, ts, _, _, ⟨t, r, y, zs, e, e1, h1, h2⟩, ⟨t', r', y', zs', e', e1', h1', h2'⟩ => by
    subst e; cases e'
    rw [e1, e1', dec_unique hu x t y y' h1 h1', decElems_unique hu xs r zs zs' h2 h2']
theorem decFields_unique {u : Bytes → V → Prop} (hu : ∀ t w w', u t w → u t w' → w = w') : (h : HoldList) → (fs : List (Bytes × Bytes)) → (fs.map (·.1)).Nodup → (x y : HoldList) →
    DecFields u h fs x → DecFields u h fs y → x = y
  | .nil, fs, _, x, y, h1, h2 => by rw [h1, h2]
  | .cons key lit x xs, fs, hn, _, _, ⟨t, y, zs, e, e1, h1, h2⟩, ⟨t', y', zs', e', e1', h1', h2'⟩ => by
    obtain rfl := nodup_snd hn e e'
    rw [e1, e1', dec_unique hu x t y y' h1 h1', decFields_unique hu xs fs hn zs zs' h2 h2']
end

end JV
