import Verif.Proofs.EscBytes
/-! Layout, pruning, reading back. -/
namespace JV
open Spec

variable {E : Env} {S : SortFn} {o : Opt} {T : Escaper}

theorem child_kid {v c : V} {s : Step} (h : v.child s = some c) : Kid v c := by
  cases v with
  | arr xs =>
    cases s with
    | key k => cases h
    | idx i => exact List.mem_of_getElem? h
  | obj n kvs low =>
    cases s with
    | key k =>
      simp only [V.child, Option.map_eq_some_iff] at h
      obtain ⟨e, he, rfl⟩ := h
      exact ⟨e, (lookup_some_key he).2, rfl⟩
    | idx i => cases h
  | _ => cases s <;> cases h

/-- to check something of every node, check the node and every element or member -/
theorem her_of_kids {P : V → Prop} {v : V} (h : P v) (hk : ∀ c, Kid v c → Her P c) : Her P v :=
  her_iff.2 ⟨h, fun _ c hc => hk c (child_kid hc)⟩

theorem her_leaf {P : V → Prop} {v : V} (h : P v) (hs : IsScalar v) : Her P v := her_of_kids h fun c hc => by cases v <;> first | exact hs.elim | exact (hc : False).elim

theorem noNil_her {v : V} (h : Her (· ≠ .nilp) v) : NoNil v := fun l hl => h l _ hl rfl

theorem at_one (v : V) (s : Step) : v.at [s] = v.child s := by
  simp only [V.at]; cases v.child s <;> rfl

theorem parentAt_root (root : V) : ParentAt root [] none :=
  ⟨fun _ => rfl, fun m k h => absurd h (by simp), fun m i h => absurd h (by simp)⟩

def stepParent (v c : V) : Step → V
  | .key _ => c
  | .idx _ => v

theorem parentAt_step {root v c w : V} {l : List Step} {s : Step} {p : Option ParentInfo} {x : Key} (hr : root.at l = some v) (hs : v.child s = some c)
    (hw : w = stepParent v c s) : ParentAt root (l ++ [s]) (some (newParentInfo w p x)) := by
  have e : (newParentInfo w p x).parent = w := by cases p <;> rfl
  refine ⟨fun h => absurd h (by simp), fun m k h => ⟨_, rfl, ?_⟩, fun m i h => ⟨_, rfl, ?_⟩⟩
  · obtain ⟨rfl, h2⟩ := List.append_inj' h rfl
    cases h2
    rw [e, hw, at_append, hr, Option.bind_some, at_one, hs]; rfl
  · obtain ⟨rfl, h2⟩ := List.append_inj' h rfl
    cases h2
    rw [e, hw, hr]; rfl

theorem doc_lays (hS : GoodSort S) {ord : List Step → List Ent → List Ent → Prop} {esc : Bytes → Bytes → Prop} (hs : ∀ s, esc s (escText T s))
    (root : V) (ho : ∀ l par n kvs low, root.at l = some (.obj n kvs low) → (kvs.map Ent.key).Nodup → (o.lessFunc.isSome = true → InfoAt l par ∧ ParentAt root l par) → ord l kvs (sorted S o par kvs))
    (v : V) (hk : Her KeysNodup v) (hn : NoNil v) (l : List Step) (hr : root.at l = some v) (par : Option ParentInfo) (hi : o.lessFunc.isSome = true → InfoAt l par ∧ ParentAt root l par) :
    Lays o ord esc l v (doc E S o T v par) := by
  induction v using kid_ind generalizing l par with
  | step v ih =>
    have ihk : ∀ c (s : Step), v.child s = some c → ∀ w : V, w = stepParent v c s → Lays o ord esc (l ++ [s]) c (doc E S o T c (if o.lessFunc.isSome then some (newParentInfo w par (stepKey s)) else none)) :=
      fun c s hs w hw => have hc := child_kid hs
      ih c hc (her_kid hk hk hc) (by
        have : Her (· ≠ .nilp) v := fun l c hl => by rintro rfl; exact hn l hl
        have := her_kid hk this hc
        intro l hl; exact this l _ hl rfl) _ (by rw [at_append, hr, Option.bind_some, at_one, hs]) _ fun h => by rw [if_pos h]; exact ⟨infoAt_step (hi h).1, parentAt_step hr hs hw⟩
    cases v with
    | nilp => exact absurd rfl (hn [])
    | notExist => simp only [doc]; exact .hole l
    | str s => simp only [doc]; exact .str l s _ (hs s)
    | bool b => simp only [doc]; cases b; exact .fls l; exact .tru l
    | null => simp only [doc]; exact .null l
    | num src n => simp only [doc]; exact .num l _ _ _ fun h => by unfold numText; rw [h]
    | arr xs =>
      unfold doc
      split
      · rename_i h; rw [List.eq_nil_of_length_eq_zero h]; exact .emptyArr l
      · rename_i h
        refine .arr l _ _ (by rintro rfl; exact h rfl) (docElems_length _ _ _ _) ?_
        intro i x d hx hd
        rw [docElems_get, hx] at hd
        simp only [Option.map_some, Option.some.injEq] at hd
        subst hd
        have := ihk x (.idx i) hx (.arr xs) rfl
        simpa [stepKey, intKey] using this
    | obj n kvs low =>
      by_cases h0 : kvs = []
      · subst h0; simp only [doc, List.length_nil, if_true]; exact .emptyObj _ _ _
      · rw [doc_obj _ _ _ _ h0]
        have hm : ∀ (i : Nat) e c k d, (shown o (sorted S o par kvs))[i]? = some e →
            (docMems o T par false ((sorted S o par kvs).map fun e => (e, doc E S o T e.v)))[i]? = some (DMem.mk c k d) →
            esc e.key k ∧ Lays o ord esc (l ++ [.key e.key]) e.v d := by
          intro i e c k d he hd
          obtain ⟨e', he', h1, h2⟩ := docMems_get _ _ _ _ hd
          rw [he] at he'; cases he'
          simp only [DMem.key, DMem.v] at h1 h2
          subst h1; subst h2
          have hek : e ∈ kvs := by
            refine sorted_mem (S := S) (o := o) (par := par) ?_
            have := List.mem_of_getElem? he
            unfold shown at this
            split at this
            · exact (List.mem_filter.1 this).1
            · exact this
          exact ⟨hs _, ihk e.v (.key e.key) (by simp [V.child, lookup_mem_nodup (her_self hk) hek]) e.v rfl⟩
        exact .obj l _ _ _ (sorted S o par kvs) _ h0 (sorted_perm hS _ _) (ho l par n kvs low hr (her_self hk) hi) (docMems_length _ _)
          (fun i e c k d h1 h2 => (hm i e c k d h1 h2).1) fun i e c k d h1 h2 => (hm i e c k d h1 h2).2

theorem infoAt_root : InfoAt [] none := ⟨fun _ => rfl, fun h => absurd rfl h⟩

theorem specText_indent (ind : Option (Bytes × Bytes)) (s : Special) : specText E { o with indent := ind } T s = specText E o T s := by
  cases s <;> rfl

theorem docMems_indent (ind : Option (Bytes × Bytes)) (par : Option ParentInfo) : ∀ (ms : List (Ent × (Option ParentInfo → Doc))) (fw : Bool),
    docMems { o with indent := ind } T par fw ms = docMems o T par fw ms
  | [], _ => rfl
  | (e, d) :: ms, fw => by simp only [docMems, docMems_indent ind par ms]

theorem sorted_indent (ind : Option (Bytes × Bytes)) (par : Option ParentInfo) (kvs : List Ent) : sorted S { o with indent := ind } par kvs = sorted S o par kvs := by
  unfold sorted sortMembers; rfl

theorem docElems_congr {o' : Opt} (hl : o'.lessFunc = o.lessFunc) (v : V) : ∀ (xs : List V) (i : Nat) (par : Option ParentInfo),
    (∀ x ∈ xs, doc E S o' T x = doc E S o T x) → docElems E S o' T v xs i par = docElems E S o T v xs i par
  | [], _, _, _ => by unfold docElems; rfl
  | x :: xs, i, par, h => by
    unfold docElems
    rw [h x (by simp), docElems_congr hl v xs _ _ fun y hy => h y (by simp [hy]), hl]

/-- the tokens do not depend on the indentation -/
theorem doc_indent (ind : Option (Bytes × Bytes)) (v : V) : doc E S { o with indent := ind } T v = doc E S o T v := by
  induction v using kid_ind with
  | step v ih =>
    funext par
    cases v with
    | arr xs =>
      conv => lhs; unfold doc
      conv => rhs; unfold doc
      rw [docElems_congr (o := o) (o' := { o with indent := ind }) rfl _ _ _ _ fun x hx => ih x hx]
    | obj n kvs low =>
      by_cases h0 : kvs = []
      · subst h0; simp [doc]
      · rw [doc_obj _ _ _ _ h0, doc_obj _ _ _ _ h0, docMems_indent, sorted_indent]
        congr 1
        congr 1
        refine List.map_congr_left fun e he => ?_
        rw [ih e.v ⟨e, sorted_mem he, rfl⟩]
    | num src n =>
      simp only [doc, numText]
      cases special src n with
      | none => rfl
      | some s => simp only [specText_indent]
    | _ => simp only [doc]

/-! pruning -/

theorem pruneL_get : ∀ (xs : List V) (i : Nat), (pruneL xs)[i]? = xs[i]?.map prune
  | [], i => by simp [pruneL]
  | x :: xs, 0 => by simp [pruneL]
  | x :: xs, i + 1 => by simp [pruneL, pruneL_get xs i]

theorem pruneL_length : ∀ (xs : List V), (pruneL xs).length = xs.length
  | [] => rfl
  | x :: xs => by simp [pruneL, pruneL_length xs]

/-- a member with its value pruned -/
def pruneE (e : Ent) : Ent := ⟨e.key, e.id, prune e.v⟩

theorem pruneM_eq : ∀ es : List Ent, pruneM es = (es.filter fun e => !isNullV e.v).map pruneE
  | [] => rfl
  | ⟨k, i, v⟩ :: es => by
    unfold pruneM
    rw [pruneM_eq es, List.filter_cons]
    cases h : isNullV v <;> simp [h, pruneE]

theorem lookup_pruneM (k : Bytes) : ∀ es : List Ent, (es.map Ent.key).Nodup → lookup k (pruneM es) = (lookup k es).bind fun e => if isNullV e.v = true then none else some (pruneE e)
  | [], _ => rfl
  | ⟨k', i, v⟩ :: es, hn => by
    rw [List.map_cons, List.nodup_cons] at hn
    have ih := lookup_pruneM k es hn.2
    have e1 : pruneM (⟨k', i, v⟩ :: es) = if isNullV v = true then pruneM es else ⟨k', i, prune v⟩ :: pruneM es := by rw [pruneM]
    have e2 : lookup k (⟨k', i, v⟩ :: es) = if k' = k then some ⟨k', i, v⟩ else lookup k es := rfl
    rw [e1, e2]
    by_cases hkk : k' = k
    · subst hkk
      rw [if_pos rfl, Option.bind_some, Ent.v_mk]
      by_cases hv : isNullV v = true
      · rw [if_pos hv, if_pos hv, ih]
        have : lookup k' es = none := by
          cases hl : lookup k' es with
          | none => rfl
          | some e' => exact absurd (List.mem_map.2 ⟨e', (lookup_some_key hl).2, (lookup_some_key hl).1⟩) hn.1
        rw [this]; rfl
      · rw [if_neg hv, if_neg hv]; exact if_pos rfl
    · rw [if_neg hkk]
      by_cases hv : isNullV v = true
      · rw [if_pos hv, ih]
      · rw [if_neg hv]; exact (if_neg hkk).trans ih

theorem prune_child_key {v : V} (k : Bytes) (hv : KeysNodup v) : (prune v).child (.key k) = (v.child (.key k)).bind fun c => if isNullV c = true then none else some (prune c) := by
  cases v with
  | obj n kvs low =>
    simp only [prune, V.child]
    rw [lookup_pruneM k kvs hv]
    cases lookup k kvs with
    | none => rfl
    | some e => simp only [Option.bind_some, Option.map_some]; cases isNullV e.v <;> rfl
  | _ => simp [prune, V.child]

theorem prune_child_idx (v : V) (i : Nat) : (prune v).child (.idx i) = (v.child (.idx i)).map prune := by
  cases v with
  | arr xs => simp [prune, V.child, pruneL_get]
  | _ => simp [prune, V.child]

theorem replace_omit {s : Special} {j : J ⊕ Err} (h : Replace E o s j) : Replace E { o with omitNull := false } s j := by
  cases h <;> (constructor <;> assumption)

/-- what is shown of a value with OptOmitNull is what is shown of the pruned value without it -/
theorem shows_prune {ord : List Step → List Ent → List Ent → Prop} (ho : o.omitNull = true) {l : List Step} {v : V} {j : J}
    (h : Shows E o ord l v j) : Shows E { o with omitNull := false } (fun _ _ _ => True) l (prune v) j := by
  induction h with
  | null l => simp only [prune]; exact .null l
  | bool l b => simp only [prune]; exact .bool l b
  | str l s d hd => simp only [prune]; exact .str l s d hd
  | num l src n hn => simp only [prune]; exact .num l src n hn
  | spec l src n s j h1 h2 => simp only [prune]; exact .spec l src n s j h1 (replace_omit h2)
  | arr l xs js h1 _ ih =>
    simp only [prune]
    refine .arr l _ js (by rw [pruneL_length, h1]) ?_
    intro i x j hx hj
    rw [pruneL_get] at hx
    obtain ⟨y, hy, rfl⟩ := Option.map_eq_some_iff.1 hx
    exact ih i y j hy hj
  | obj l n kvs low es ms hp hord hlen hkey _ ih =>
    simp only [prune]
    have hsh : shown o es = es.filter fun e => !isNullV e.v := by unfold shown; rw [if_pos ho]
    have hsh' : shown { o with omitNull := false } (pruneM es) = (shown o es).map pruneE := by
      rw [hsh, ← pruneM_eq]; rfl
    have hpp : (pruneM es).Perm (pruneM kvs) := by rw [pruneM_eq, pruneM_eq]; exact (hp.filter _).map _
    refine .obj l n _ low (pruneM es) ms hpp trivial (by rw [hlen, hsh']; simp) ?_ ?_
    · intro i e m he hm
      rw [hsh', List.getElem?_map] at he
      obtain ⟨e', he', rfl⟩ := Option.map_eq_some_iff.1 he
      exact hkey i e' m he' hm
    · intro i e m he hm
      rw [hsh', List.getElem?_map] at he
      obtain ⟨e', he', rfl⟩ := Option.map_eq_some_iff.1 he
      exact ih i e' m he' hm

/-! reading back -/

theorem reads_numTok {t : Bytes} (h : Reads E t) : NumTok E t := by
  obtain ⟨n, h⟩ := h
  obtain ⟨j, ⟨b1, t', b2, he, hb1, hv, hb2⟩, hj⟩ := (unmarshal_iff E t _).1 h
  cases hv with
  | num t' hn => simp only [toV] at hj; cases hj; exact hn
  | _ => simp [toV] at hj

theorem numTok_reads {t : Bytes} (h : NumTok E t) : Reads E t := ⟨_, unmarshal_numTok h⟩

theorem lval_mono {num num' : Bytes → Prop} (hm : ∀ t, num t → num' t) {t : Bytes} {j : J} (h : LVal num t j) : LVal num' t j := by
  refine @LVal.rec num (fun t j _ => LVal num' t j) (fun t js _ => LElems num' t js) (fun t ms _ => LMems num' t ms) ?_ ?_ ?_ ?_ ?_ ?_ ?_ ?_ ?_ ?_ ?_ t j h
  · exact .null
  · exact .tru
  · exact .fls
  · intro t ht; exact .num t (hm t ht)
  · intro t d hd; exact .str t d hd
  · intro t xs _ ih; exact .arr t xs ih
  · intro t ms _ ih; exact .obj t ms ih
  · intro s hs; exact .nil s hs
  · intro s t ts v vs h1 _ _ h4 ih ihs; exact .cons s t ts v vs h1 ih ihs h4
  · intro s hs; exact .nil s hs
  · intro s k b1 b2 t ts d v vs h1 h2 h3 h4 _ _ h7 ih ihs; exact .cons s k b1 b2 t ts d v vs h1 h2 h3 h4 ih ihs h7

theorem read_back {b : Bytes} {j : J} (h : LText (Reads E) b j) : ∃ w, goUnmarshal E b = .ok (b, w, none) ∧ Denotes E (fun t n => unmarshal E t = .ok (.num t n)) j w := by
  obtain ⟨b1, t, b2, he, hb1, hv, hb2⟩ := h
  refine ⟨toV E j, goUnmarshal_ok.2 ⟨rfl, (unmarshal_iff E b _).2 ⟨j, ⟨b1, t, b2, he, hb1, lval_mono (fun _ => reads_numTok) hv, hb2⟩, rfl⟩⟩, ?_⟩
  refine toV_denotes E _ j ?_
  have := lval_nums hv
  exact AllNums_mono (fun t ht => unmarshal_numTok (reads_numTok ht)) j this

end JV
