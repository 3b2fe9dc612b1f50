import Verif.Proofs.Heap
/-!
On nodes that have one place each, the operations on the heap do what the operations on trees do.
-/
namespace JV
open Spec

theorem hlookup_find (k : Bytes) (kvs : List HEnt) : hlookup k kvs = kvs.find? (fun e => e.key = k) := by
  induction kvs with
  | nil => rfl
  | cons e es ih => simp only [hlookup, List.find?_cons]; by_cases h : e.key = k <;> simp [h, ih]

theorem childPtr_det {h : Heap} {p s q r} (h1 : ChildPtr h p s q) (h2 : ChildPtr h p s r) : q = r := by
  cases h1 with
  | idx a xs i q ha hi => cases h2 with | idx _ ys _ _ hb hj => rw [ha] at hb; cases hb; rw [hi] at hj; cases hj; rfl
  | key a n kvs low k e ha he =>
    cases h2 with
    | key _ n' kvs' low' _ e' hb he' => rw [ha] at hb; cases hb; rw [he] at he'; cases he'; rfl

theorem childPtr_frame {h h' : Heap} {a : Nat} {s q} (hc : ChildPtr h (some a) s q) (hf : h'[a]? = h[a]?) : ChildPtr h' (some a) s q := by
  cases hc with
  | idx a xs i q ha hi => exact .idx a xs i q (by rw [hf]; exact ha) hi
  | key a n kvs low k e ha he => exact .key a n kvs low k e (by rw [hf]; exact ha) he

/-- what an operation did: only the objects `F` of the tree, and those of the inserted value `C`, may have changed; the pointer now shows
`v'`, made of objects of `F` and `C` and of new ones, each in one place -/
structure Upd (h : Heap) (F C : List Nat) (h' : Heap) (p : Ptr) (v' : V) : Prop where
  len : h.length ≤ h'.length
  frame : ∀ a, a < h.length → a ∉ F → a ∉ C → h'[a]? = h[a]?
  shows : ∃ F', Hangs h' p v' F' ∧ F'.Nodup ∧ ∀ a ∈ F', a ∈ F ∨ a ∈ C ∨ h.length ≤ a

theorem upd_refl {h : Heap} {F C p v} (hs : Hangs h p v F) (hn : F.Nodup) : Upd h F C h p v :=
  ⟨Nat.le_refl _, fun _ _ _ _ => rfl, F, hs, hn, fun _ ha => .inl ha⟩

theorem upd_trans {h h1 h2 : Heap} {F C p v v'} (h12 : Upd h F C h1 p v)
    (k : ∀ F', Hangs h1 p v F' → F'.Nodup → (∀ a ∈ F', a ∈ F ∨ a ∈ C ∨ h.length ≤ a) → Upd h1 F' C h2 p v') : Upd h F C h2 p v' := by
  obtain ⟨F', hs, hn, hsub⟩ := h12.shows
  have hu := k F' hs hn hsub
  refine ⟨Nat.le_trans h12.len hu.len, ?_, ?_⟩
  · intro a ha hF hC
    rw [hu.frame a (Nat.lt_of_lt_of_le ha h12.len) (fun hm => ?_) hC, h12.frame a ha hF hC]
    rcases hsub a hm with h | h | h
    · exact hF h
    · exact hC h
    · omega
  · obtain ⟨F'', hs', hn', hsub'⟩ := hu.shows
    refine ⟨F'', hs', hn', fun a ha => ?_⟩
    rcases hsub' a ha with h | h | h
    · exact hsub a h
    · exact .inr (.inl h)
    · exact .inr (.inr (Nat.le_trans h12.len h))

/-- the child under a step in focus -/
theorem shows_focus {h : Heap} {p v F s w} (hs : Hangs h p v F) (hw : v.child s = some w) :
    ∃ a q F1 G F2, p = some a ∧ F = a :: (F1 ++ (G ++ F2)) ∧ ChildPtr h p s q ∧ Hangs h q w G ∧
      ∀ (h' : Heap) w' G', h'[a]? = h[a]? → (∀ b ∈ F1, h'[b]? = h[b]?) → (∀ b ∈ F2, h'[b]? = h[b]?) → Hangs h' q w' G' →
        Hangs h' p (v.put s w') (a :: (F1 ++ (G' ++ F2))) := by
  match v, s, hw with
  | .arr xs, .idx i, hw =>
    obtain ⟨a, ps, G0, rfl, rfl, ha, hl⟩ := shows_arr hs
    obtain ⟨q, F1, G, F2, hq, rfl, hq', h1, h2⟩ := showsL_focus hl hw
    refine ⟨a, q, F1, G, F2, rfl, rfl, .idx a ps i q ha hq, hq', ?_⟩
    intro h' w' G' ha' hf1 hf2 hw'
    refine shows_mk_arr (by rw [ha', ha]) ?_
    have hi := (List.getElem?_eq_some_iff.1 hw).1
    have hi' := (List.getElem?_eq_some_iff.1 hq).1
    have := showsL_append (showsL_frame h1 hf1) (HangsL.cons _ _ _ _ _ _ hw' (showsL_frame h2 hf2))
    rw [take_set_drop _ _ _ hi]
    rwa [← (List.getElem?_eq_some_iff.1 hq).2, ← List.drop_eq_getElem_cons hi', List.take_append_drop] at this
  | .obj n es low, .key k, hw =>
    obtain ⟨a, kvs, G0, rfl, rfl, ha, hk, hl⟩ := shows_obj hs
    simp only [V.child, lookup_keyIdx] at hw
    cases hi : keyIdx k (es.map Ent.key) with
    | none => rw [hi] at hw; cases hw
    | some i =>
      rw [hi] at hw
      simp only [Option.bind_some] at hw
      cases he : es[i]? with
      | none => rw [he] at hw; cases hw
      | some e =>
        rw [he] at hw; simp at hw; subst hw
        obtain ⟨q, F1, G, F2, hq, rfl, hq', h1, h2⟩ := showsL_focus hl (i := i) (w := e.v) (by simp [he])
        rw [List.getElem?_map] at hq
        cases hx : kvs[i]? with
        | none => rw [hx] at hq; cases hq
        | some x =>
          rw [hx] at hq; simp at hq; subst hq
          refine ⟨a, x.v, F1, G, F2, rfl, rfl, .key a n kvs low k x ha ?_, hq', ?_⟩
          · rw [← hlookup_find, hlookup_keyIdx, hk.keys, hi]; simpa using hx
          · intro h' w' G' ha' hf1 hf2 hw'
            have hlt := (List.getElem?_eq_some_iff.1 he).1
            have hlt' := (List.getElem?_eq_some_iff.1 hx).1
            have hput : (V.obj n es low).put (.key k) w' = .obj n (es.set i ⟨e.key, e.id, w'⟩) low := by
              simp only [V.put, putKey_keyIdx, hi, he]
            rw [hput]
            refine shows_mk_obj (by rw [ha', ha]) ?_ ?_
            · unfold SameKeys
              rw [hk, List.map_set]
              simp only [Ent.key_mk, Ent.id_mk]
              apply List.ext_getElem?
              intro j
              rw [List.getElem?_set]
              split
              · rename_i hij; subst hij; simp [hlt, (List.getElem?_eq_some_iff.1 he).2]
              · rfl
            · have := showsL_append (showsL_frame h1 hf1) (HangsL.cons _ _ _ _ _ _ hw' (showsL_frame h2 hf2))
              rw [List.map_set, Ent.v_mk, take_set_drop _ _ _ (by simpa using hlt)]
              have hxe : x.v = (kvs.map HEnt.v)[i]'(by simpa using hlt') := by simp [(List.getElem?_eq_some_iff.1 hx).2]
              rwa [hxe, ← List.drop_eq_getElem_cons, List.take_append_drop] at this

/-- an operation on a child is an operation on the parent -/
theorem upd_child {h h' : Heap} {p v F C s w w'} (hs : Hangs h p v F) (hn : F.Nodup) (hd : ∀ x ∈ C, x ∉ F) (hw : v.child s = some w)
    {q G} (hq : ChildPtr h p s q) (hG : Hangs h q w G) (hu : G.Nodup → (∀ x ∈ G, x ∈ F) → Upd h G C h' q w') :
    Upd h F C h' p (v.put s w') ∧ ChildPtr h' p s q := by
  obtain ⟨a, q', F1, G1, F2, rfl, rfl, hq', hG1, hput⟩ := shows_focus hs hw
  have := childPtr_det hq hq'; subst this
  obtain ⟨-, rfl⟩ := shows_det hG hG1
  have hu := hu (by grind) (by grind)
  have hlt := shows_lt hs
  have hdis : ∀ b, b ∈ a :: (F1 ++ F2) → h'[b]? = h[b]? := by
    intro b hb
    apply hu.frame b (hlt b (by grind))
    · grind
    · intro hc; exact hd b hc (by grind)
  have ha := hdis a (by grind)
  obtain ⟨G', hG', hn', hsub⟩ := hu.shows
  refine ⟨⟨hu.len, ?_, ?_⟩, childPtr_frame hq ha⟩
  · intro b hb hF hC
    exact hu.frame b hb (by grind) hC
  · refine ⟨_, hput h' w' G' ha (fun b hb => hdis b (by grind)) (fun b hb => hdis b (by grind)) hG', ?_, ?_⟩
    · have hx : ∀ b ∈ G', b ∉ a :: (F1 ++ F2) := by
        intro b hb hm
        rcases hsub b hb with h1 | h1 | h1
        · grind
        · exact hd b h1 (by grind)
        · have := hlt b (by grind); omega
      grind
    · grind

/-! ## writing one object -/

/-- an object gets new contents made of objects of the tree and of the inserted value -/
theorem upd_write {h : Heap} {a : Nat} {v F C} (hs : Hangs h (some a) v F) {cell' : Cell} {v' : V} {G' : List Nat} (hsh : SameShape cell' v')
    (hk : HangsL h (kids cell') (treeKids v') G') (hn : G'.Nodup) (hsub : ∀ x ∈ G', x ≠ a ∧ (x ∈ F ∨ x ∈ C)) :
    Upd h F C (h.set a cell') (some a) v' := by
  obtain ⟨c, G, rfl, ha, -, -⟩ := shows_some hs
  have hlt := (List.getElem?_eq_some_iff.1 ha).1
  refine ⟨by simp, fun b hb hF _ => ?_, a :: G', ?_, ?_, ?_⟩
  · rw [List.getElem?_set_ne]; grind
  · refine .node a cell' v' G' (by simp [hlt]) hsh (showsL_frame hk fun b hb => ?_)
    rw [List.getElem?_set_ne]; have := (hsub b hb).1; exact Ne.symm this
  · refine List.nodup_cons.2 ⟨fun hm => (hsub a hm).1 rfl, hn⟩
  · intro b hb
    rcases List.mem_cons.1 hb with rfl | hb
    · exact .inl (List.mem_cons_self ..)
    · rcases (hsub b hb).2 with h | h
      · exact .inl h
      · exact .inr (.inl h)

/-- edited lists of pointers show edited lists of trees -/
structure Edit (h : Heap) (G C : List Nat) (ps : List Ptr) (xs : List V) : Prop where
  ex : ∃ G', HangsL h ps xs G' ∧ G'.Nodup ∧ ∀ x ∈ G', x ∈ G ∨ x ∈ C

theorem edit_same {h : Heap} {ps xs G C} (hl : HangsL h ps xs G) (hn : G.Nodup) : Edit h G C ps xs := ⟨G, hl, hn, fun _ hx => .inl hx⟩

theorem edit_push {h : Heap} {ps xs G c tc C} (hl : HangsL h ps xs G) (hc : Hangs h c tc C) (hn : (G ++ C).Nodup) :
    Edit h G C (ps ++ [c]) (xs ++ [tc]) := ⟨G ++ C, showsL_append hl (showsL_one hc), hn, fun x hx => by grind⟩

theorem edit_insert {h : Heap} {ps xs G c tc C} (i : Nat) (hl : HangsL h ps xs G) (hc : Hangs h c tc C) (hn : (G ++ C).Nodup) :
    Edit h G C (ps.take i ++ c :: ps.drop i) (xs.take i ++ tc :: xs.drop i) := by
  obtain ⟨F1, F2, rfl, h1, h2⟩ := showsL_split i hl
  exact ⟨F1 ++ (C ++ F2), showsL_append h1 (.cons _ _ _ _ _ _ hc h2), by grind, fun x hx => by grind⟩

theorem edit_set {h : Heap} {ps xs G c tc C} (i : Nat) (hi : i < xs.length) (hl : HangsL h ps xs G) (hc : Hangs h c tc C) (hn : (G ++ C).Nodup) :
    Edit h G C (ps.set i c) (xs.set i tc) := by
  have hi' : i < ps.length := by rw [showsL_length hl]; exact hi
  obtain ⟨q, F1, G1, F2, hq, rfl, hq', h1, h2⟩ := showsL_focus hl (List.getElem?_eq_getElem hi)
  rw [take_set_drop _ _ _ hi, take_set_drop _ _ _ hi']
  exact ⟨F1 ++ (C ++ F2), showsL_append h1 (.cons _ _ _ _ _ _ hc h2), by grind, fun x hx => by grind⟩

theorem edit_erase {h : Heap} {ps xs G C} (i : Nat) (hi : i < xs.length) (hl : HangsL h ps xs G) (hn : G.Nodup) :
    Edit h G C (ps.eraseIdx i) (xs.eraseIdx i) := by
  obtain ⟨q, F1, G1, F2, hq, rfl, hq', h1, h2⟩ := showsL_focus hl (List.getElem?_eq_getElem hi)
  rw [List.eraseIdx_eq_take_drop_succ, List.eraseIdx_eq_take_drop_succ]
  exact ⟨F1 ++ F2, showsL_append h1 h2, by grind, fun x hx => by grind⟩

theorem upd_write_arr {h : Heap} {a : Nat} {ps xs G C ys zs} (ha : h[a]? = some (.arr ps)) (hl : HangsL h ps xs G) (hn : (a :: G).Nodup) (hC : a ∉ C)
    (he : Edit h G C ys zs) : Upd h (a :: G) C (h.set a (.arr ys)) (some a) (.arr zs) := by
  obtain ⟨G', h1, h2, h3⟩ := he.ex
  refine upd_write (shows_mk_arr ha hl) (cell' := .arr ys) trivial h1 h2 fun x hx => ?_
  have := h3 x hx
  grind

theorem upd_write_obj {h : Heap} {a : Nat} {n kvs low es G C n' kvs' low' es'} (ha : h[a]? = some (.obj n kvs low)) (hk : SameKeys kvs es)
    (hl : HangsL h (kvs.map HEnt.v) (es.map Ent.v) G) (hn : (a :: G).Nodup) (hC : a ∉ C) (hk' : SameKeys kvs' es')
    (he : Edit h G C (kvs'.map HEnt.v) (es'.map Ent.v)) : Upd h (a :: G) C (h.set a (.obj n' kvs' low')) (some a) (.obj n' es' low') := by
  obtain ⟨G', h1, h2, h3⟩ := he.ex
  refine upd_write (shows_mk_obj ha hk hl) (cell' := .obj n' kvs' low') ⟨rfl, rfl, hk'⟩ h1 h2 fun x hx => ?_
  have := h3 x hx
  grind

theorem sameKeys_assign {kvs es k i} (h : SameKeys kvs es) (c : Ptr) (tc : V) : SameKeys (hassign ⟨k, i, c⟩ kvs) (assign ⟨k, i, tc⟩ es) := by
  unfold SameKeys at *
  rw [hassign_keyIdx, assign_keyIdx, SameKeys.keys h]
  simp only [Ent.key_mk]
  cases keyIdx k (es.map Ent.key) <;> simp [h]

theorem map_eraseIdx {α β : Type} (f : α → β) (xs : List α) (i : Nat) : (xs.eraseIdx i).map f = (xs.map f).eraseIdx i := by
  rw [List.eraseIdx_eq_take_drop_succ, List.eraseIdx_eq_take_drop_succ, List.map_append, List.map_take, List.map_drop]

theorem sameKeys_erase {kvs es k} (h : SameKeys kvs es) : SameKeys (herase k kvs) (erase k es) := by
  have hk := h.keys
  unfold SameKeys at *
  rw [herase_keyIdx, erase_keyIdx, hk]
  cases keyIdx k (es.map Ent.key) with
  | none => exact h
  | some i => simp only [map_eraseIdx]; rw [h]

theorem edit_assign {h : Heap} {kvs es G c tc C} (k : Bytes) (i : BitVec 32) (hk : SameKeys kvs es) (hl : HangsL h (kvs.map HEnt.v) (es.map Ent.v) G)
    (hc : Hangs h c tc C) (hn : (G ++ C).Nodup) : Edit h G C ((hassign ⟨k, i, c⟩ kvs).map HEnt.v) ((assign ⟨k, i, tc⟩ es).map Ent.v) := by
  rw [hassign_keyIdx, assign_keyIdx, hk.keys]
  simp only [Ent.key_mk]
  cases hi : keyIdx k (es.map Ent.key) with
  | none => simp only [List.map_append, List.map_cons, List.map_nil, Ent.v_mk]; exact edit_push hl hc hn
  | some j => simp only [List.map_set, Ent.v_mk]; exact edit_set j (by simpa using keyIdx_lt hi) hl hc hn

theorem edit_delete {h : Heap} {kvs es G C} (k : Bytes) (hk : SameKeys kvs es) (hl : HangsL h (kvs.map HEnt.v) (es.map Ent.v) G) (hn : G.Nodup) :
    Edit h G C ((herase k kvs).map HEnt.v) ((erase k es).map Ent.v) := by
  rw [herase_keyIdx, erase_keyIdx, hk.keys]
  cases hi : keyIdx k (es.map Ent.key) with
  | none => exact edit_same hl hn
  | some j => simp only [map_eraseIdx]; exact edit_erase j (by simpa using keyIdx_lt hi) hl hn

/-! ## Get -/

/-- the result of an operation on trees, a location, and the pointer that the operation on the heap returned -/
def Agrees (h : Heap) (p : Ptr) (t : R (List Step)) (r : R Ptr) : Prop :=
  match t with
  | .ok l => ∃ q, r = .ok q ∧ Leads h p l q
  | .err e => r = .err e
  | .panic => r = .panic
  | .diverge => r = .diverge

/-- the same for a single step -/
def AgreesStep (h : Heap) (p : Ptr) (t : R Step) (r : R Ptr) : Prop :=
  match t with
  | .ok s => ∃ q, r = .ok q ∧ ChildPtr h p s q
  | .err e => r = .err e
  | .panic => r = .panic
  | .diverge => r = .diverge

theorem hlookup_some {kvs : List HEnt} {es : List Ent} {k : Bytes} (hk : SameKeys kvs es) (h : (lookup k es).isSome = true) : ∃ e, hlookup k kvs = some e := by
  rw [lookup_keyIdx] at h
  rw [hlookup_keyIdx, hk.keys]
  cases hi : keyIdx k (es.map Ent.key) with
  | none => rw [hi] at h; cases h
  | some i =>
    have h1 := keyIdx_lt hi
    rw [← hk.keys] at h1
    simp only [List.length_map] at h1
    exact ⟨kvs[i], by simp [h1]⟩

theorem hlocate_refines {E : Env} {cl : Bool} {h : Heap} {p v F} (q : Param) (hs : Hangs h p v F) (hn : F.Nodup) :
    Upd h F [] (hlocate E cl h p q).1 p (locate E cl v q).1 ∧ AgreesStep (hlocate E cl h p q).1 p (locate E cl v q).2 (hlocate E cl h p q).2 := by
  cases hs with
  | nil => exact ⟨upd_refl .nil hn, rfl⟩
  | node a c v G ha hsh hl =>
    have hs := Hangs.node a c v G ha hsh hl
    have hr := upd_refl (C := []) hs hn
    cases c <;> cases v <;> try exact hsh.elim
    all_goals try (simp only [hlocate, ha, locate]; exact ⟨hr, rfl⟩)
    · rename_i ps xs
      simp only [kids, treeKids] at hl
      have hlen := showsL_length hl
      simp only [hlocate, ha, locate]
      cases hz : anyToInt q with
      | err e => exact ⟨hr, rfl⟩
      | panic => exact ⟨hr, rfl⟩
      | diverge => exact ⟨hr, rfl⟩
      | ok pos =>
        simp only [hlen]
        by_cases hneg : posForRead xs.length pos < 0
        · simp only [hneg, if_true]; exact ⟨hr, rfl⟩
        · simp only [hneg, if_false]
          by_cases hlt : (posForRead xs.length pos).toNat < xs.length
          · have hlt' : (posForRead xs.length pos).toNat < ps.length := by omega
            simp only [hlt, if_true, List.getElem?_eq_getElem hlt']
            exact ⟨hr, _, rfl, .idx a ps _ _ ha (List.getElem?_eq_getElem hlt')⟩
          · have hlt' : ps.length ≤ (posForRead xs.length pos).toNat := by omega
            simp only [hlt, if_false, List.getElem?_eq_none hlt']
            exact ⟨hr, rfl⟩
    · rename_i n kvs low n' es low'
      obtain ⟨rfl, rfl, hk⟩ := hsh
      simp only [kids, treeKids] at hl
      simp only [hlocate, ha, locate]
      have hlt := (List.getElem?_eq_some_iff.1 ha).1
      cases hz : anyToString q with
      | err e => exact ⟨hr, rfl⟩
      | panic => exact ⟨hr, rfl⟩
      | diverge => exact ⟨hr, rfl⟩
      | ok key =>
        simp only [findKey_keysOf E cl (es := es) hk]
        have hw : ∀ low', Upd h (a :: G) [] (h.set a (.obj n kvs low')) (some a) (.obj n es low') :=
          fun low' => upd_write_obj ha hk hl hn (by simp) hk (edit_same hl (List.nodup_cons.1 hn).2)
        cases hf : findKey E cl es low key with
        | mk low' o =>
          cases o with
          | none => exact ⟨hw low', rfl⟩
          | some k =>
            obtain ⟨e, he⟩ := hlookup_some hk (findKey_some hf)
            simp only [he]
            exact ⟨hw low', e.v, rfl, .key a n kvs low' k e (by simp [hlt]) (by rw [← hlookup_find]; exact he)⟩

theorem locate_ok_child {E : Env} {cl : Bool} {v v' : V} {q : Param} {s : Step} (h : locate E cl v q = (v', .ok s)) : ∃ w, v'.child s = some w := by
  cases v <;> simp only [locate] at h <;> try (cases h; done)
  · rename_i xs
    cases hz : anyToInt q with
    | ok pos =>
      rw [hz] at h; simp only at h
      split at h
      · cases h
      · split at h
        · cases h; rename_i hlt; exact ⟨_, List.getElem?_eq_getElem hlt⟩
        · cases h
    | err e => rw [hz] at h; cases h
    | panic => rw [hz] at h; cases h
    | diverge => rw [hz] at h; cases h
  · rename_i n es low
    cases hz : anyToString q with
    | ok key =>
      rw [hz] at h; simp only at h
      cases hf : findKey E cl es low key with
      | mk low' o =>
        rw [hf] at h
        cases o with
        | none => cases h
        | some k =>
          cases h
          have := findKey_some hf
          simp only [V.child]
          cases hl : lookup k es with
          | none => rw [hl] at this; cases this
          | some e => exact ⟨_, rfl⟩
    | err e => rw [hz] at h; cases h
    | panic => rw [hz] at h; cases h
    | diverge => rw [hz] at h; cases h

theorem agrees_of_step {h : Heap} {p : Ptr} {t : R Step} {r : R Ptr} (ha : AgreesStep h p t r) : Agrees h p (do let s ← t; pure [s]) r := by
  cases t with
  | ok s => obtain ⟨q, h1, h2⟩ := ha; exact ⟨q, h1, .step _ _ _ _ _ h2 (.here q)⟩
  | err e => exact ha
  | panic => exact ha
  | diverge => exact ha

/-- the operations on trees and on the heap agree -/
def GetAgrees (h : Heap) (F : List Nat) (p : Ptr) (t : V × R (List Step)) (r : Heap × R Ptr) : Prop :=
  Upd h F [] r.1 p t.1 ∧ Agrees r.1 p t.2 r.2

theorem upd_nil_mono {h h' : Heap} {F C p v} (hu : Upd h F [] h' p v) : Upd h F C h' p v :=
  ⟨hu.len, fun a ha hF _ => hu.frame a ha hF (by simp), let ⟨F', h1, h2, h3⟩ := hu.shows; ⟨F', h1, h2, fun a ha => by have := h3 a ha; grind⟩⟩

theorem hget_cons {E : Env} {cl : Bool} {q : Param} {qs : List Param} {h : Heap} {p v F} (hne : qs ≠ []) (hs : Hangs h p v F) (hn : F.Nodup)
    (ih : ∀ {h : Heap} {p v F}, Hangs h p v F → F.Nodup → GetAgrees h F p (resolve E cl v qs) (hget E cl h p qs)) :
    GetAgrees h F p (resolve E cl v (q :: qs)) (hget E cl h p (q :: qs)) := by
  have hne' : qs.isEmpty = false := by cases qs; exact absurd rfl hne; rfl
  unfold hget resolve
  simp only [hne', Bool.false_eq_true, if_false]
  by_cases hq : q.isSlice = true
  · simp only [hq, if_true]; exact ⟨upd_refl hs hn, rfl⟩
  · simp only [hq, if_false]
    obtain ⟨hu, hag⟩ := hlocate_refines (E := E) (cl := cl) q hs hn
    cases ht : locate E cl v q with
    | mk v1 t =>
      cases hr : hlocate E cl h p q with
      | mk h1 r =>
        rw [ht, hr] at hu hag
        simp only at hu hag
        cases t with
        | err e => simp only [AgreesStep] at hag; subst hag; exact ⟨hu, rfl⟩
        | panic => simp only [AgreesStep] at hag; subst hag; exact ⟨hu, rfl⟩
        | diverge => simp only [AgreesStep] at hag; subst hag; exact ⟨hu, rfl⟩
        | ok s =>
          obtain ⟨c, rfl, hc⟩ := hag
          obtain ⟨w, hw⟩ := locate_ok_child ht
          simp only [hw]
          obtain ⟨F', hs', hn', hsub⟩ := hu.shows
          obtain ⟨a, c', F1, G, F2, rfl, hF', hc', hG, -⟩ := shows_focus hs' hw
          obtain rfl := childPtr_det hc hc'
          have hGn : G.Nodup := by rw [hF'] at hn'; grind
          have hi := ih hG hGn
          have hst := upd_child hs' hn' (C := []) (by simp) hw hc hG (fun _ _ => hi.1)
          refine ⟨upd_trans hu fun F'' hs'' _ _ => ?_, ?_⟩
          · obtain ⟨-, rfl⟩ := shows_det hs' hs''; exact hst.1
          · have h2 := hi.2
            cases hr2 : (resolve E cl w qs).2 with
            | ok l =>
              rw [hr2] at h2
              obtain ⟨x, hx, hl⟩ := h2
              exact ⟨x, hx, .step _ _ _ _ _ hst.2 hl⟩
            | err e => rw [hr2] at h2; exact h2
            | panic => rw [hr2] at h2; exact h2
            | diverge => rw [hr2] at h2; exact h2

mutual
theorem hget1_refines {E : Env} {cl : Bool} : ∀ (q : Param) {h : Heap} {p v F}, Hangs h p v F → F.Nodup →
    GetAgrees h F p (resolve1 E cl v q) (hget1 E cl h p q)
  | .slice [], h, p, v, F, hs, hn => by
    have := hlocate_refines (E := E) (cl := cl) .nil hs hn
    simp only [resolve1, hget1, List.isEmpty_nil, if_true]
    exact ⟨this.1, agrees_of_step this.2⟩
  | .slice (q :: qs), h, p, v, F, hs, hn => by
    simp only [resolve1, hget1, List.isEmpty_cons, Bool.false_eq_true, if_false]
    exact hget_refines (q :: qs) hs hn
  | .nil, h, p, v, F, hs, hn => by
    have := hlocate_refines (E := E) (cl := cl) .nil hs hn
    simp only [resolve1, hget1]
    exact ⟨this.1, agrees_of_step this.2⟩
  | .int i, h, p, v, F, hs, hn => by
    have := hlocate_refines (E := E) (cl := cl) (.int i) hs hn
    simp only [resolve1, hget1]
    exact ⟨this.1, agrees_of_step this.2⟩
  | .uint i, h, p, v, F, hs, hn => by
    have := hlocate_refines (E := E) (cl := cl) (.uint i) hs hn
    simp only [resolve1, hget1]
    exact ⟨this.1, agrees_of_step this.2⟩
  | .str i, h, p, v, F, hs, hn => by
    have := hlocate_refines (E := E) (cl := cl) (.str i) hs hn
    simp only [resolve1, hget1]
    exact ⟨this.1, agrees_of_step this.2⟩
  | .other, h, p, v, F, hs, hn => by
    have := hlocate_refines (E := E) (cl := cl) .other hs hn
    simp only [resolve1, hget1]
    exact ⟨this.1, agrees_of_step this.2⟩
termination_by structural q => q
theorem hget_refines {E : Env} {cl : Bool} : ∀ (ps : List Param) {h : Heap} {p v F}, Hangs h p v F → F.Nodup →
    GetAgrees h F p (resolve E cl v ps) (hget E cl h p ps)
  | [], h, p, v, F, hs, hn => ⟨upd_refl hs hn, rfl⟩
  | [q], h, p, v, F, hs, hn => by
    simp only [resolve, hget, List.isEmpty_nil, if_true]
    exact hget1_refines q hs hn
  | q :: q' :: qs, h, p, v, F, hs, hn => hget_cons (by simp) hs hn fun hs hn => hget_refines (q' :: qs) hs hn
termination_by structural ps => ps
end

end JV
