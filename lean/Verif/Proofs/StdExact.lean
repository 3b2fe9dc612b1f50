import Verif.Proofs.JsonOK
import Verif.Proofs.Export
import Verif.Proofs.Unambiguous
import Verif.Spec.StdJson
/-! What encoding/json makes of the output of Marshal. -/
namespace JV
open Spec

variable {E : Env} {S : SortFn} {o : Opt} {T : Escaper}

/-! ### consequences of the assumptions -/

theorem check_passes {valid : Bytes → Bool} (h : GoodCheck valid) {s : Bytes} {j : J} (hj : JText s j) (hd : j.depth ≤ maxNesting) : valid s = true := by
  obtain ⟨j', h1, h2⟩ := jtext_raw hj
  exact (h s).2 ⟨j', h1, by rw [← h2.1]; exact hd⟩

theorem check_deep {valid : Bytes → Bool} (h : GoodCheck valid) {s : Bytes} {j : J} (hj : JText s j) (hd : maxNesting < j.depth) : valid s = false := by
  cases hv : valid s with
  | false => rfl
  | true =>
    obtain ⟨j', h1, h2⟩ := (h s).1 hv
    have := (raw_like h1 hj).1
    omega

theorem check_refuses {valid : Bytes → Bool} (h : GoodCheck valid) {s : Bytes} (hq : Quoted s) (hj : ∀ j, ¬ JText s j) : valid s = false := by
  cases hv : valid s with
  | false => rfl
  | true =>
    obtain ⟨j', h1, -⟩ := (h s).1 hv
    obtain ⟨j, h2, -⟩ := raw_jtext h1 hq
    exact absurd h2 (hj j)

theorem check_iff {valid : Bytes → Bool} (h : GoodCheck valid) {s : Bytes} (hq : Quoted s) : valid s = true ↔ ∃ j, JText s j ∧ j.depth ≤ maxNesting := by
  rw [h s]
  constructor
  · rintro ⟨j, h1, h2⟩
    obtain ⟨j', h3, h4⟩ := raw_jtext h1 hq
    exact ⟨j', h3, by rw [← h4.1]; exact h2⟩
  · rintro ⟨j, h1, h2⟩
    obtain ⟨j', h3, h4⟩ := jtext_raw h1
    exact ⟨j', h3, by rw [← h4.1]; exact h2⟩

theorem dec_deep {pf : Bytes → Option (BitVec 64)} {dec : AnyDec} (h : GoodDec pf dec) {s : Bytes} {j : J} (hj : JText s j) (hd : maxNesting < j.depth) : dec s = none := by
  cases hv : dec s with
  | none => rfl
  | some g =>
    obtain ⟨j', h1, h2, -⟩ := h.only s g hv
    have := (raw_like h1 hj).1
    omega

theorem dec_refuses {pf : Bytes → Option (BitVec 64)} {dec : AnyDec} (h : GoodDec pf dec) {s : Bytes} (hq : Quoted s) (hj : ∀ j, ¬ JText s j) : dec s = none := by
  cases hv : dec s with
  | none => rfl
  | some g =>
    obtain ⟨j', h1, -⟩ := h.only s g hv
    obtain ⟨j, h2, -⟩ := raw_jtext h1 hq
    exact absurd h2 (hj j)

theorem dec_iff {pf : Bytes → Option (BitVec 64)} {dec : AnyDec} (h : GoodDec pf dec) {s : Bytes} (hq : Quoted s) :
    (∃ g, dec s = some g) ↔ ∃ j, JText s j ∧ j.depth ≤ maxNesting ∧ j.AllNums (fun t => pf t ≠ none) := by
  constructor
  · rintro ⟨g, hg⟩
    obtain ⟨j, h1, h2, h3⟩ := h.only s g hg
    obtain ⟨j', h4, h5⟩ := raw_jtext h1 hq
    exact ⟨j', h4, by rw [← h5.1]; exact h2, (h5.2 _).1 h3⟩
  · rintro ⟨j, h1, h2, h3⟩
    obtain ⟨g, hg, -⟩ := h.reads s j h1 h2 h3
    exact ⟨g, hg⟩

/-! ### nesting and numbers -/

theorem nests_scalar {v : V} (h : IsScalar v) (n : Nat) : Nests n v := by
  intro l c hc hs
  cases l with
  | nil => simp only [V.at, Option.some.injEq] at hc; subst hc; exact absurd h hs
  | cons s l => cases v <;> first | exact h.elim | (cases s <;> simp [V.at, V.child] at hc)

theorem nests_iff {v : V} (hk : KeysNodup v) (hv : ¬ IsScalar v) {n : Nat} : Nests n v ↔ ∃ m, n = m + 1 ∧ ∀ c, Kid v c → Nests m c := by
  constructor
  · intro h
    have h0 := h [] v rfl hv
    obtain ⟨m, rfl⟩ : ∃ m, n = m + 1 := ⟨n - 1, by simp at h0; omega⟩
    refine ⟨m, rfl, fun c hc => ?_⟩
    obtain ⟨s, hs⟩ := kid_child hk hc
    exact nests_child h hs
  · rintro ⟨m, rfl, h⟩ l c hc hs
    cases l with
    | nil => simp
    | cons s l =>
      simp only [V.at] at hc
      cases hw : v.child s with
      | none => rw [hw] at hc; cases hc
      | some w =>
        rw [hw] at hc
        have := h w (child_kid hw) l c hc hs
        simp only [List.length_cons]; omega

theorem depthL_iff {js : List J} {m : Nat} : depthL js ≤ m ↔ ∀ j ∈ js, j.depth ≤ m := by
  induction js with
  | nil => simp [depthL]
  | cons j js ih => simp only [depthL, List.mem_cons, forall_eq_or_imp]; rw [← ih]; omega

theorem depthM_iff {ms : List Mem} {m : Nat} : depthM ms ≤ m ↔ ∀ x ∈ ms, x.v.depth ≤ m := by
  induction ms with
  | nil => simp [depthM]
  | cons x ms ih => obtain ⟨k, v⟩ := x; simp only [depthM, List.mem_cons, forall_eq_or_imp]; rw [← ih]; simp only [Mem.v]; omega

theorem allNumsL_iff {P : Bytes → Prop} {js : List J} : AllNumsL P js ↔ ∀ j ∈ js, j.AllNums P := by
  induction js with
  | nil => simp [AllNumsL]
  | cons j js ih => simp only [AllNumsL, List.mem_cons, forall_eq_or_imp, ih]

theorem allNumsM_iff {P : Bytes → Prop} {ms : List Mem} : AllNumsM P ms ↔ ∀ x ∈ ms, x.v.AllNums P := by
  induction ms with
  | nil => simp [AllNumsM]
  | cons x ms ih => obtain ⟨k, v⟩ := x; simp only [AllNumsM, List.mem_cons, forall_eq_or_imp, ih]; rfl

theorem docX_leaf_unique {a : Bytes} {j j' : J} (h : DocX (.leaf a) j) (h' : JVal a j') : j = j' := by
  have h1 := docX_strict (ind := none) trivial h 0
  unfold Doc.print at h1
  exact jtext_unique (s := a) ⟨[], a, [], by simp, ws_nil, h1, ws_nil⟩ ⟨[], a, [], by simp, ws_nil, h', ws_nil⟩

theorem replace_num {s : Special} {t : Bytes} {r : J ⊕ Err} (h : Replace E o s (.inl (.num t))) (h' : Replace E o s r) : r = .inl (.num t) := by
  generalize hx : (Sum.inl (J.num t) : J ⊕ Err) = x at h
  cases h <;> cases hx <;> cases h' <;> simp_all

/-- a leaf of the value: nesting and numbers -/
def LeafOK (E : Env) (o : Opt) (P : Bytes → Prop) (v : V) (j : J) : Prop := j.depth = 0 ∧ (j.AllNums P ↔ NumShown E o P v)

theorem num_leafOK (hT : ∀ n, n < 128 → EscOK n (T.ascii n)) (hV : T.ascii 0xB = .nothing) (hF : ∀ f, isValidFloat f = true → JNum (E.jsonFloat f)) (P : Bytes → Prop)
    {src : Bytes} {n : Num} (hn : NumTextsOK (.num src n)) {par : Option ParentInfo} {j : J} (h : DocX (doc E S o T (.num src n) par) j) : LeafOK E o P (.num src n) j := by
  unfold doc numText at h
  cases hsp : special src n with
  | none =>
    rw [hsp] at h
    have := docX_leaf_unique h (.num _ (docX_numChars hn h))
    subst this
    refine ⟨rfl, ?_⟩
    simp only [J.AllNums, NumShown, hsp, true_implies]
    exact ⟨fun hp => ⟨hp, by simp⟩, fun hp => hp.1⟩
  | some s =>
    rw [hsp] at h
    dsimp only at h
    obtain ⟨r, hr⟩ := replace_total E o s
    have key : ∀ j', r = .inl j' → (∀ t, j' = .num t → j = .num t) → ((∀ t, j' ≠ .num t) → j.depth = 0 ∧ ∀ P, j.AllNums P) → LeafOK E o P (.num src n) j := by
      intro j' e1 e2 e3
      subst e1
      by_cases hj : ∃ t, j' = .num t
      · obtain ⟨t, rfl⟩ := hj
        have := e2 t rfl
        subst this
        refine ⟨rfl, ?_⟩
        simp only [J.AllNums, NumShown, hsp]
        constructor
        · intro hp
          refine ⟨by simp, fun s' t' hs' hr' => ?_⟩
          cases hs'
          have := replace_num hr' hr
          cases this; exact hp
        · exact fun hp => hp.2 s t rfl hr
      · have e4 := e3 fun t ht => hj ⟨t, ht⟩
        refine ⟨e4.1, iff_of_true (e4.2 P) ?_⟩
        simp only [NumShown, hsp]
        refine ⟨by simp, fun s' t' hs' hr' => ?_⟩
        cases hs'
        have := replace_num hr' hr
        cases this; exact absurd ⟨t', rfl⟩ hj
    cases r with
    | inr e => rw [spec_refused hr] at h; exact absurd h docX_nil
    | inl j' =>
      rcases spec_given hT hV hr with ⟨f, hf, rfl, h2⟩ | ⟨rfl, h2⟩ | ⟨b, d, rfl, h2, hb, hvt, -⟩
      · rw [h2] at h
        exact key _ rfl (fun t ht => by rw [← ht]; exact docX_leaf_unique h (.num _ (hF f hf))) (fun hx => absurd rfl (hx _))
      · rw [h2] at h
        have := docX_leaf_unique h .null
        subst this
        exact key _ rfl (by simp) (fun _ => ⟨rfl, fun _ => trivial⟩)
      · rw [h2] at h
        obtain ⟨d', hd'⟩ := docX_quoted h
        have := docX_leaf_unique h (.str _ d' ⟨b, rfl, hd'⟩)
        subst this
        exact key _ rfl (by simp) (fun _ => ⟨rfl, fun _ => trivial⟩)

/-- a value written as nothing is a scalar, and no number is written for it -/
theorem hole_leaf (hT : ∀ n, n < 128 → EscOK n (T.ascii n)) (hV : T.ascii 0xB = .nothing) (hF : ∀ f, isValidFloat f = true → JNum (E.jsonFloat f)) (P : Bytes → Prop)
    {x : V} {par : Option ParentInfo} (h0 : doc E S o T x par = .leaf []) : IsScalar x ∧ NumShown E o P x := by
  cases x with
  | arr ys => unfold doc at h0; split at h0 <;> simp at h0
  | obj n kvs low => unfold doc at h0; split at h0 <;> simp at h0
  | num src n =>
    refine ⟨trivial, ?_⟩
    unfold doc numText at h0
    cases hsp : special src n with
    | none =>
      rw [hsp] at h0
      simp at h0
      subst h0
      unfold special at hsp
      simp at hsp
      (repeat' split at hsp) <;> simp at hsp
    | some s =>
      rw [hsp] at h0
      simp only [NumShown, hsp]
      refine ⟨by simp, fun s' t' hs' hr' => ?_⟩
      cases hs'
      rcases spec_given hT hV hr' with ⟨f, hf, e, h2⟩ | ⟨e, h2⟩ | ⟨b, d, e, h2, hb, hvt, -⟩
      · simp only [h2, Doc.leaf.injEq] at h0
        obtain ⟨⟨c, u, h3, -⟩, -⟩ := jnum_shape (hF f hf)
        rw [h3] at h0; cases h0
      · cases e
      · cases e
  | _ => exact ⟨trivial, trivial⟩

theorem her_kids_iff {P : V → Prop} {v : V} (hk : KeysNodup v) (hv : P v) : Her P v ↔ ∀ c, Kid v c → Her P c := by
  constructor
  · intro h c hc
    obtain ⟨s, hs⟩ := kid_child hk hc
    exact (her_iff.1 h).2 s c hs
  · exact her_of_kids hv

/-- the document written for a value nests as deep as the value and has its numbers -/
theorem docX_shape (hT : ∀ n, n < 128 → EscOK n (T.ascii n)) (hV : T.ascii 0xB = .nothing) (hF : ∀ f, isValidFloat f = true → JNum (E.jsonFloat f)) (hS : GoodSort S) (P : Bytes → Prop)
    (v : V) (hk : Her KeysNodup v) (hn : Her NumTextsOK v) (par : Option ParentInfo) (j : J) (h : DocX (doc E S o T v par) j) :
    (∀ n, j.depth ≤ n ↔ Nests n v) ∧ (j.AllNums P ↔ Her (NumShown E o P) v) := by
  have leaf : ∀ {v : V} {j : J}, IsScalar v → LeafOK E o P v j → (∀ n, j.depth ≤ n ↔ Nests n v) ∧ (j.AllNums P ↔ Her (NumShown E o P) v) := by
    intro v j hv hl
    refine ⟨fun n => iff_of_true (by rw [hl.1]; omega) (nests_scalar hv n), hl.2.trans ⟨fun h => her_leaf h hv, her_self⟩⟩
  induction v using kid_ind generalizing par j with
  | step v ih =>
    have ihk : ∀ c, Kid v c → ∀ (p : Option ParentInfo) (j : J), DocX (doc E S o T c p) j → (∀ n, j.depth ≤ n ↔ Nests n c) ∧ (j.AllNums P ↔ Her (NumShown E o P) c) :=
      fun c hc p j hd => ih c hc (her_kid hk hk hc) (her_kid hk hn hc) _ j hd
    have hn0 := her_self hn
    have hk0 := her_self hk
    cases v with
    | nilp => exact absurd h docX_nil
    | notExist => exact absurd h docX_nil
    | null =>
      have := docX_leaf_unique h .null
      subst this
      exact leaf trivial ⟨rfl, Iff.rfl⟩
    | bool b =>
      have : j = .bool b := by
        unfold doc at h
        cases b
        · exact docX_leaf_unique h .fls
        · exact docX_leaf_unique h .tru
      subst this
      exact leaf trivial ⟨rfl, Iff.rfl⟩
    | str s =>
      unfold doc at h
      obtain ⟨d, hd⟩ := docX_quoted h
      have := docX_leaf_unique h (.str _ d ⟨_, rfl, hd⟩)
      subst this
      exact leaf trivial ⟨rfl, Iff.rfl⟩
    | num src n => exact leaf trivial (num_leafOK hT hV hF P hn0 h)
    | arr xs =>
      have hsc : ¬ IsScalar (.arr xs) := fun h => h
      rw [her_kids_iff hk0 trivial]
      simp only [nests_iff hk0 hsc]
      unfold doc at h
      split at h
      · rename_i h0
        have : xs = [] := by simpa using h0
        subst this
        have := docX_leaf_unique h (.arrNil [] ws_nil)
        subst this
        refine ⟨fun n => ?_, ?_⟩
        · simp only [J.depth, depthL, Kid, List.not_mem_nil]
          exact ⟨fun hle => ⟨n - 1, by omega, by simp⟩, by rintro ⟨m, rfl, -⟩; omega⟩
        · simp [J.AllNums, AllNumsL, Kid]
      · have hget := docElems_get (E := E) (S := S) (o := o) (T := T) (.arr xs) xs 0 par
        have hlen := docElems_length (E := E) (S := S) (o := o) (T := T) (.arr xs) xs 0 par
        generalize docElems E S o T (.arr xs) xs 0 par = ds at h hget hlen
        cases h with
        | lone =>
          obtain ⟨x, rfl⟩ : ∃ x, xs = [x] := by
            cases xs with
            | nil => simp at hlen
            | cons x xs => cases xs with
              | nil => exact ⟨x, rfl⟩
              | cons y xs => simp at hlen
          have h0 := hget 0
          simp at h0
          obtain ⟨h1, h2⟩ := hole_leaf hT hV hF P h0.symm
          have hkid : ∀ c, Kid (.arr [x]) c ↔ c = x := fun c => by simp [Kid]
          refine ⟨fun n => ?_, ?_⟩
          · simp only [J.depth, depthL, hkid, forall_eq]
            exact ⟨fun hle => ⟨n - 1, by omega, nests_scalar h1 _⟩, by rintro ⟨m, rfl, -⟩; omega⟩
          · simp only [hkid, forall_eq]
            exact iff_of_true trivial (her_leaf h2 h1)
        | arr _ js _ h2 h3 =>
          have each : ∀ (i : Nat) x, xs[i]? = some x → ∃ j, js[i]? = some j ∧ (∀ n, j.depth ≤ n ↔ Nests n x) ∧ (j.AllNums P ↔ Her (NumShown E o P) x) := by
            intro i x hx
            have hd := hget i
            rw [hx] at hd
            have hi : i < js.length := by rw [h2, hlen]; exact (List.getElem?_eq_some_iff.1 hx).1
            exact ⟨js[i], List.getElem?_eq_getElem hi, ihk x (List.mem_of_getElem? hx) _ _ (h3 i _ js[i] hd (List.getElem?_eq_getElem hi))⟩
          have back : ∀ (i : Nat) j, js[i]? = some j → ∃ x, xs[i]? = some x := by
            intro i j hj
            have hi : i < xs.length := by rw [← hlen, ← h2]; exact (List.getElem?_eq_some_iff.1 hj).1
            exact ⟨xs[i], List.getElem?_eq_getElem hi⟩
          have all : ∀ {p : J → Prop} {q : V → Prop}, (∀ (i : Nat) x j, xs[i]? = some x → js[i]? = some j → (p j ↔ q x)) → ((∀ j ∈ js, p j) ↔ ∀ c, Kid (.arr xs) c → q c) := by
            intro p q hpq
            constructor
            · intro hp c hc
              obtain ⟨i, hi⟩ := List.mem_iff_getElem?.1 (hc : c ∈ xs)
              obtain ⟨j, hj, -⟩ := each i c hi
              exact (hpq i c j hi hj).1 (hp j (List.mem_of_getElem? hj))
            · intro hq j hj
              obtain ⟨i, hi⟩ := List.mem_iff_getElem?.1 hj
              obtain ⟨x, hx⟩ := back i j hi
              exact (hpq i x j hx hi).2 (hq x (List.mem_of_getElem? hx))
          have same : ∀ (i : Nat) x j, xs[i]? = some x → js[i]? = some j → (∀ n, j.depth ≤ n ↔ Nests n x) ∧ (j.AllNums P ↔ Her (NumShown E o P) x) := by
            intro i x j hx hj
            obtain ⟨j', hj', h4⟩ := each i x hx
            rw [hj] at hj'; cases hj'; exact h4
          refine ⟨fun n => ?_, ?_⟩
          · simp only [J.depth]
            constructor
            · intro hle
              refine ⟨n - 1, by omega, (all (p := fun j => j.depth ≤ n - 1) fun i x j hx hj => (same i x j hx hj).1 _).1 (depthL_iff.1 (by omega))⟩
            · rintro ⟨m, rfl, hm⟩
              have := depthL_iff.2 ((all (p := fun j => j.depth ≤ m) fun i x j hx hj => (same i x j hx hj).1 _).2 hm)
              omega
          · simp only [J.AllNums]
            rw [allNumsL_iff]
            exact all fun i x j hx hj => (same i x j hx hj).2
    | obj n0 kvs low =>
      have hsc : ¬ IsScalar (.obj n0 kvs low) := fun h => h
      rw [her_kids_iff hk0 trivial]
      simp only [nests_iff hk0 hsc]
      by_cases h0 : kvs = []
      · subst h0
        have : j = .obj [] := by unfold doc at h; exact docX_leaf_unique h (.objNil [] ws_nil)
        subst this
        refine ⟨fun n => ?_, ?_⟩
        · simp only [J.depth, depthM]
          exact ⟨fun hle => ⟨n - 1, by omega, by rintro c ⟨e, he, -⟩; cases he⟩, by rintro ⟨m, rfl, -⟩; omega⟩
        · exact iff_of_true trivial (by rintro c ⟨e, he, -⟩; cases he)
      · rw [doc_obj _ _ _ _ h0] at h
        have hget := @docMems_get o T (fun e => doc E S o T e.v) par (sorted S o par kvs) false
        have hlen := @docMems_length o T (fun e => doc E S o T e.v) par (sorted S o par kvs) false
        generalize docMems o T par false ((sorted S o par kvs).map fun e => (e, doc E S o T e.v)) = ms at h hget hlen
        cases h with
        | obj _ es hc h1 h2 h3 =>
          have hp := sorted_perm (o := o) hS par kvs
          have each : ∀ e ∈ kvs, ¬ Omitted o e → ∃ x ∈ es, (∀ n, x.v.depth ≤ n ↔ Nests n e.v) ∧ (x.v.AllNums P ↔ Her (NumShown E o P) e.v) := by
            intro e he hno
            obtain ⟨i, hi⟩ := List.mem_iff_getElem?.1 (mem_shown.2 ⟨hp.mem_iff.2 he, hno⟩)
            have hlt : i < (shown o (sorted S o par kvs)).length := (List.getElem?_eq_some_iff.1 hi).1
            have hlt2 : i < ms.length := by omega
            have hlt3 : i < es.length := by omega
            have g2 := List.getElem?_eq_getElem hlt2
            have g3 := List.getElem?_eq_getElem hlt3
            obtain ⟨e', g4, -, g5⟩ := hget i _ g2
            obtain rfl : e = e' := by rw [hi] at g4; simpa using g4
            have := h3 i _ _ g2 g3
            rw [g5] at this
            exact ⟨es[i], List.getElem_mem hlt3, ihk e.v ⟨e, he, rfl⟩ _ _ this⟩
          have back : ∀ x ∈ es, ∃ e ∈ kvs, (∀ n, x.v.depth ≤ n ↔ Nests n e.v) ∧ (x.v.AllNums P ↔ Her (NumShown E o P) e.v) := by
            intro x hx
            obtain ⟨i, hi⟩ := List.mem_iff_getElem?.1 hx
            have hlt : i < es.length := (List.getElem?_eq_some_iff.1 hi).1
            have hlt2 : i < ms.length := by omega
            have g2 := List.getElem?_eq_getElem hlt2
            obtain ⟨e, g4, -, g5⟩ := hget i _ g2
            have he : e ∈ kvs := hp.mem_iff.1 (mem_shown.1 (List.mem_of_getElem? g4)).1
            have := h3 i _ _ g2 hi
            rw [g5] at this
            exact ⟨e, he, ihk e.v ⟨e, he, rfl⟩ _ _ this⟩
          refine ⟨fun n => ?_, ?_⟩
          · simp only [J.depth]
            constructor
            · intro hle
              refine ⟨n - 1, by omega, ?_⟩
              have hd := depthM_iff.1 (show depthM es ≤ n - 1 by omega)
              rintro c ⟨e, he, rfl⟩
              by_cases hom : Omitted o e
              · exact nests_scalar (by rw [hom.2]; trivial) _
              · obtain ⟨x, hx, h4, -⟩ := each e he hom
                exact (h4 _).1 (hd x hx)
            · rintro ⟨m, rfl, hm⟩
              have : depthM es ≤ m := depthM_iff.2 fun x hx => by
                obtain ⟨e, he, h4, -⟩ := back x hx
                exact (h4 _).2 (hm _ ⟨e, he, rfl⟩)
              omega
          · simp only [J.AllNums]
            rw [allNumsM_iff]
            constructor
            · rintro hd c ⟨e, he, rfl⟩
              by_cases hom : Omitted o e
              · rw [hom.2]; exact her_leaf trivial trivial
              · obtain ⟨x, hx, -, h4⟩ := each e he hom
                exact h4.1 (hd x hx)
            · intro hm x hx
              obtain ⟨e, he, -, h4⟩ := back x hx
              exact h4.2 (hm _ ⟨e, he, rfl⟩)

/-- the literals of the output of Marshal are good -/
theorem marshal_quoted (d : Opt) {v : V} (hv : Marshalable v) {opts : List MOpt} {b : Bytes} (hF : ∀ f, isValidFloat f = true → JNum (E.jsonFloat f)) (hn : Her NumTextsOK v)
    (hi : WsIndent (optOf d opts).indent) (h : marshal E S d v opts = .ok (b, none)) : Quoted b := by
  obtain ⟨-, rfl⟩ := marshal_ok hv h
  unfold textOf
  have := tok_quoted hi (doc_tok (S := S) (o := optOf d opts) (escOf_ok d opts) (escOf_vt d opts) hF v hv.1 hn none) 0 [] .nil
  rwa [List.append_nil] at this

/-- the output of Marshal, if it is JSON, nests as deep as the value and has its numbers -/
theorem marshal_shape (hS : GoodSort S) (d : Opt) {v : V} (hv : Marshalable v) {opts : List MOpt} {b : Bytes} (hF : ∀ f, isValidFloat f = true → JNum (E.jsonFloat f))
    (hn : Her NumTextsOK v) (hi : WsIndent (optOf d opts).indent) (h : marshal E S d v opts = .ok (b, none)) {j : J} (hj : JText b j) (P : Bytes → Prop) :
    (∀ n, j.depth ≤ n ↔ Nests n v) ∧ (j.AllNums P ↔ Her (NumShown E (optOf d opts) P) v) := by
  obtain ⟨-, rfl⟩ := marshal_ok hv h
  unfold textOf at hj
  have ht := doc_tok (S := S) (o := optOf d opts) (escOf_ok d opts) (escOf_vt d opts) hF v hv.1 hn none
  obtain ⟨w1, t, w2, e, h1, h2, h3⟩ := hj
  have := tok_exact hi ht 0 [] w1 t j [] w2 ws_nil h1 h2 (.inl (stop_nil ws_nil)) (stop_nil h3) (by simpa using e)
  exact docX_shape (escOf_ok d opts) (escOf_vt d opts) hF hS P v hv.1 hn none j this.2.2.2

end JV
