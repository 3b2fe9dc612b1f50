import Verif.Proofs.HeapRefine
/-!
Set on the heap does what Set on trees does, and stores the given object itself.
-/
namespace JV
open Spec

/-- the result of an operation that stores `c`: the location where the tree model says it is, where the heap has the pointer `c` itself -/
def AgreesAt (h : Heap) (p c : Ptr) (t : R (List Step)) (r : R Ptr) : Prop :=
  match t with
  | .ok l => r = .ok c ∧ Leads h p l c
  | .err e => r = .err e
  | .panic => r = .panic
  | .diverge => r = .diverge

def SetAgrees (h : Heap) (F C : List Nat) (p c : Ptr) (t : V × R (List Step)) (r : Heap × R Ptr) : Prop :=
  Upd h F C r.1 p t.1 ∧ AgreesAt r.1 p c t.2 r.2

theorem find_hassign (e : HEnt) (kvs : List HEnt) : (hassign e kvs).find? (fun x => x.key = e.key) = some e := by
  rw [← hlookup_find]
  induction kvs with
  | nil => simp [hassign, hlookup]
  | cons x xs ih =>
    simp only [hassign]
    split
    · simp [hlookup]
    · rename_i hne; simp [hlookup, hne, ih]

theorem hsetKey_refines {E : Env} {h : Heap} {a : Nat} {n kvs low es G c tc C} (k : Bytes) (ha : h[a]? = some (.obj n kvs low)) (hk : SameKeys kvs es)
    (hl : HangsL h (kvs.map HEnt.v) (es.map Ent.v) G) (hc : Hangs h c tc C) (hn : (a :: G ++ C).Nodup) :
    SetAgrees h (a :: G) C (some a) c (setKey E n es low k tc, .ok [.key k]) (hsetKey E h a k c) := by
  have hlt := (List.getElem?_eq_some_iff.1 ha).1
  simp only [hsetKey, ha, setKey]
  refine ⟨upd_write_obj ha hk hl (by grind) (by grind) (sameKeys_assign hk c tc) (edit_assign k _ hk hl hc (by grind)), rfl, ?_⟩
  refine .step _ c _ _ _ ?_ (.here c)
  exact .key a (n + 1) _ _ k ⟨k, n + 1, c⟩ (List.getElem?_set_self hlt) (find_hassign ⟨k, n + 1, c⟩ kvs)

theorem hpush_refines {h : Heap} {a : Nat} {ps xs G c tc C} (ha : h[a]? = some (.arr ps)) (hl : HangsL h ps xs G) (hc : Hangs h c tc C) (hn : (a :: G ++ C).Nodup) :
    SetAgrees h (a :: G) C (some a) c (.arr (xs ++ [tc]), .ok [.idx xs.length]) (h.set a (.arr (ps ++ [c])), .ok c) := by
  have hlt := (List.getElem?_eq_some_iff.1 ha).1
  refine ⟨upd_write_arr ha hl (by grind) (by grind) (edit_push hl hc (by grind)), rfl, ?_⟩
  refine .step _ c _ _ _ ?_ (.here c)
  exact .idx a _ _ c (List.getElem?_set_self hlt) (by rw [← showsL_length hl]; simp)

theorem setAgrees_err {h : Heap} {F C p c v} {e : Err} (hs : Hangs h p v F) (hn : F.Nodup) : SetAgrees h F C p c (v, .err e) (h, .err e) := ⟨upd_refl hs hn, rfl⟩
theorem setAgrees_panic {h : Heap} {F C p c v} (hs : Hangs h p v F) (hn : F.Nodup) : SetAgrees h F C p c (v, .panic) (h, .panic) := ⟨upd_refl hs hn, rfl⟩

theorem hatLast_refines {E : Env} {h : Heap} {p v F c tc C} (q : Param) (hs : Hangs h p v F) (hc : Hangs h c tc C) (hn : (F ++ C).Nodup) (hv : v.uninit = false) :
    SetAgrees h F C p c (atLastParam E v tc q) (hatLast E h p c q) := by
  cases hs with
  | nil => cases hv
  | node a cell v G ha hsh hl =>
    have hs := Hangs.node a cell v G ha hsh hl
    have hnF : (a :: G).Nodup := by grind
    have herr : ∀ e : Err, SetAgrees h (a :: G) C (some a) c (v, .err e) (h, .err e) := fun e => setAgrees_err hs hnF
    have hpan : SetAgrees h (a :: G) C (some a) c (v, .panic) (h, .panic) := setAgrees_panic hs hnF
    cases cell <;> cases v <;> try exact hsh.elim
    all_goals try (simp only [hatLast, ha, atLastParam]; exact herr _)
    · rename_i ps xs
      simp only [kids, treeKids] at hl
      have hlen := showsL_length hl
      simp only [hatLast, ha, atLastParam]
      cases hz : anyToInt q with
      | err e => exact herr e
      | panic => exact hpan
      | diverge => exact hpan
      | ok pos =>
        simp only [setAtIndex_eq, hlen]
        have hlt := (List.getElem?_eq_some_iff.1 ha).1
        by_cases hp : pos = (xs.length : Int)
        · simp only [hp, if_true]
          exact hpush_refines ha hl hc hn
        · simp only [hp, if_false]
          cases hi : index xs.length pos with
          | none => exact herr _
          | some i =>
            have hi' := index_lt hi
            refine ⟨upd_write_arr ha hl (by grind) (by grind) (edit_set i hi' hl hc (by grind)), rfl, ?_⟩
            refine .step _ c _ _ _ ?_ (.here c)
            exact .idx a (ps.set i c) i c (List.getElem?_set_self hlt) (List.getElem?_set_self (by omega))
    · rename_i n kvs low n' es low'
      obtain ⟨rfl, rfl, hk⟩ := hsh
      simp only [kids, treeKids] at hl
      simp only [hatLast, ha, atLastParam]
      cases hz : anyToString q with
      | err e => exact herr e
      | panic => exact hpan
      | diverge => exact hpan
      | ok k => exact hsetKey_refines k ha hk hl hc hn

theorem hsetAt1_plain_refines {E : Env} {h : Heap} {p v F c tc C} (q : Param) (hs : Hangs h p v F) (hc : Hangs h c tc C) (hn : (F ++ C).Nodup) :
    SetAgrees h F C p c (if v.uninit || tc.uninit then (v, .err .valueUninitialized) else atLastParam E v tc q)
      (if h.uninit p || h.uninit c then (h, .err .valueUninitialized) else hatLast E h p c q) := by
  rw [shows_uninit hs, shows_uninit hc]
  by_cases hu : (v.uninit || tc.uninit) = true
  · rw [if_pos hu, if_pos hu]; exact setAgrees_err hs (by grind)
  · rw [if_neg hu, if_neg hu]
    refine hatLast_refines q hs hc hn ?_
    simp only [Bool.or_eq_true, not_or, Bool.not_eq_true] at hu; exact hu.1

theorem showsL_mem {h : Heap} : ∀ {ps vs F} {q : Ptr}, HangsL h ps vs F → q ∈ ps → ∃ w G, Hangs h q w G ∧ ∀ a ∈ G, a ∈ F
  | _, _, _, _, .nil, hq => by cases hq
  | _, _, _, _, .cons p v F ps vs G hp hps, hq => by
    rcases List.mem_cons.1 hq with rfl | hq
    · exact ⟨v, F, hp, fun a ha => List.mem_append_left _ ha⟩
    · obtain ⟨w, K, h1, h2⟩ := showsL_mem hps hq
      exact ⟨w, K, h1, fun a ha => List.mem_append_right _ (h2 a ha)⟩

/-- a new object at the end of the heap -/
theorem shows_ext {h : Heap} {p v F} (cell : Cell) (hs : Hangs h p v F) : Hangs (h ++ [cell]) p v F :=
  shows_frame hs fun a ha => List.getElem?_append_left (shows_lt hs a ha)

theorem hnewContainer_cases (q : Param) : (hnewContainer q = .ok (.obj 0 [] none) ∧ newContainer q = .ok newObject) ∨
    (hnewContainer q = .ok (.arr []) ∧ newContainer q = .ok newArray) ∨ ∃ e, hnewContainer q = .err e ∧ newContainer q = .err e := by
  cases q with
  | str k => exact .inl ⟨rfl, rfl⟩
  | int i => simp only [hnewContainer, newContainer, anyToString, anyToInt]; by_cases h : i.toInt = 0 <;> simp [h]
  | uint i => simp only [hnewContainer, newContainer, anyToString, anyToInt]; by_cases h : i.toInt = 0 <;> simp [h]
  | nil => exact .inr (.inr ⟨.other, rfl, rfl⟩)
  | slice => exact .inr (.inr ⟨.other, rfl, rfl⟩)
  | other => exact .inr (.inr ⟨.other, rfl, rfl⟩)

theorem leads_frame {h h' : Heap} : ∀ {l p v F q}, Hangs h p v F → (∀ a ∈ F, h'[a]? = h[a]?) → Leads h p l q → Leads h' p l q
  | [], _, _, _, _, _, _, hl => by cases hl; exact .here _
  | s :: l, p, v, F, q, hs, hf, hl => by
    cases hl with
    | step _ r _ _ _ hc hl =>
      cases hs with
      | nil => cases hc
      | node a cell v G ha hsh hk =>
        have hc' := childPtr_frame (h' := h') hc (hf a (List.mem_cons_self ..))
        refine .step _ r _ _ _ hc' ?_
        have hmem : r ∈ kids cell := by
          cases hc with
          | idx _ xs i _ hb hi => rw [ha] at hb; cases hb; exact List.mem_of_getElem? hi
          | key _ n kvs low k e hb he => rw [ha] at hb; cases hb; exact List.mem_map_of_mem (List.mem_of_find?_eq_some he)
        obtain ⟨w, K, hw, hsub⟩ := showsL_mem hk hmem
        exact leads_frame hw (fun b hb => hf b (List.mem_cons_of_mem _ (hsub b hb))) hl

theorem shows_container {h : Heap} {q : Param} {cell : Cell} (hq : hnewContainer q = .ok cell) :
    ∃ d, newContainer q = .ok d ∧ (d = newObject ∨ d = newArray) ∧ Hangs (h ++ [cell]) (some h.length) d [h.length] := by
  have hg : (h ++ [cell])[h.length]? = some cell := by simp
  rcases hnewContainer_cases q with ⟨h1, h2⟩ | ⟨h1, h2⟩ | ⟨e, h1, h2⟩
  · rw [h1] at hq; cases hq; exact ⟨newObject, h2, .inl rfl, shows_mk_obj hg rfl .nil⟩
  · rw [h1] at hq; cases hq; exact ⟨newArray, h2, .inr rfl, shows_mk_arr hg .nil⟩
  · rw [h1] at hq; cases hq

theorem hnewContainer_fail {q : Param} : (∃ cell, hnewContainer q = .ok cell) ∨ (∃ e, hnewContainer q = .err e ∧ newContainer q = .err e) := by
  rcases hnewContainer_cases q with ⟨h1, h2⟩ | ⟨h1, h2⟩ | ⟨e, h1, h2⟩
  · exact .inl ⟨_, h1⟩
  · exact .inl ⟨_, h1⟩
  · exact .inr ⟨e, h1, h2⟩

/-- everything that was there before a container was created and filled is as it was -/
theorem shows_kept {h h2 : Heap} {cell : Cell} {C p v F} {q : Ptr} {w} (hu : Upd (h ++ [cell]) [h.length] C h2 q w) (hs : Hangs h p v F) (hn : (F ++ C).Nodup) :
    Hangs h2 p v F := by
  have hlt := shows_lt hs
  refine shows_frame hs fun a ha => ?_
  have := hlt a ha
  rw [hu.frame a (by simp; omega) (by simp; omega) (by grind), List.getElem?_append_left this]

theorem showsL_kept {h h2 : Heap} {cell : Cell} {C ps vs F} {q : Ptr} {w} (hu : Upd (h ++ [cell]) [h.length] C h2 q w) (hs : HangsL h ps vs F) (hn : (F ++ C).Nodup) :
    HangsL h2 ps vs F := by
  have hlt := showsL_lt hs
  refine showsL_frame hs fun a ha => ?_
  have := hlt a ha
  rw [hu.frame a (by simp; omega) (by simp; omega) (by grind), List.getElem?_append_left this]

theorem upd_kept {h h2 : Heap} {cell : Cell} {C p v F} {q : Ptr} {w} (hu : Upd (h ++ [cell]) [h.length] C h2 q w) (hs : Hangs h p v F) (hn : (F ++ C).Nodup) :
    Upd h F C h2 p v := by
  refine ⟨?_, ?_, F, shows_kept hu hs hn, by grind, fun a ha => .inl ha⟩
  · have := hu.len; simp at this; omega
  · intro a ha hF hC
    rw [hu.frame a (by simp; omega) (by simp; omega) hC, List.getElem?_append_left ha]

/-- the container is linked into its parent -/
theorem upd_link {h h2 h3 : Heap} {cell : Cell} {C p v F} {q : Ptr} {w G'} (hu : Upd (h ++ [cell]) [h.length] C h2 q w) (hs : Hangs h p v F)
    (hsub : ∀ a ∈ G', a ∈ [h.length] ∨ a ∈ C ∨ (h ++ [cell]).length ≤ a) (h23 : Upd h2 F G' h3 p v') : Upd h F C h3 p v' := by
  have hlt := shows_lt hs
  have hlen := hu.len
  simp only [List.length_append, List.length_cons, List.length_nil] at hlen hsub
  refine ⟨by have := h23.len; omega, ?_, ?_⟩
  · intro a ha hF hC
    rw [h23.frame a (by omega) hF (fun hm => ?_), hu.frame a (by simp; omega) (by simp; omega) hC, List.getElem?_append_left ha]
    have := hsub a hm
    grind
  · obtain ⟨F', h1, h2, h3⟩ := h23.shows
    refine ⟨F', h1, h2, fun a ha => ?_⟩
    rcases h3 a ha with h | h | h
    · exact .inl h
    · have := hsub a h
      grind
    · exact .inr (.inr (by omega))

/-- what the induction needs for the rest of the path -/
def SetIH (E : Env) (ps : List Param) : Prop := ∀ {h : Heap} {p v F c tc C}, Hangs h p v F → Hangs h c tc C → (F ++ C).Nodup →
  SetAgrees h F C p c (setAt E v tc ps) (hsetAt E h p c ps)

/-- a missing step: the container is created, filled and then linked -/
theorem hset_missing {E : Env} {ps : List Param} (ih : SetIH E ps) {h : Heap} {p v F c tc C} (hs : Hangs h p v F) (hc : Hangs h c tc C) (hn : (F ++ C).Nodup)
    {q : Param} {s : Step} {link : Heap → Heap × R Ptr} {tlink : V → V}
    (hlink : ∀ {h2 : Heap} {w G'}, Hangs h2 p v F → Hangs h2 (some h.length) w G' → (F ++ G').Nodup →
      SetAgrees h2 F G' p (some h.length) (tlink w, .ok [s]) (link h2) ∧ ∀ a, a ∉ F → (link h2).1[a]? = h2[a]?) :
    SetAgrees h F C p c
      (match newContainer q with
        | .ok child =>
          match (setAt E child tc ps).2 with
          | .ok l => (tlink (setAt E child tc ps).1, .ok (s :: l))
          | .err e => (v, .err e)
          | .panic => (v, .panic)
          | .diverge => (v, .diverge)
        | .err e => (v, .err e)
        | _ => (v, .panic))
      (match hnewContainer q with
        | .ok cell => hthen (hsetAt E (h ++ [cell]) (some h.length) c ps) fun h' c => hthen (link h') fun h' _ => (h', .ok c)
        | .err e => (h, .err e)
        | _ => (h, .panic)) := by
  rcases hnewContainer_fail (q := q) with ⟨cell, hcell⟩ | ⟨e, h1, h2⟩
  · obtain ⟨d, hd, -, hsd⟩ := shows_container (h := h) hcell
    simp only [hcell, hd]
    have hCl : ∀ x ∈ C, x < h.length := shows_lt hc
    have hi := ih hsd (shows_ext cell hc) (by
      refine List.nodup_append.2 ⟨by simp, by grind, ?_⟩
      intro a ha b hb
      have := hCl b hb
      grind)
    obtain ⟨hu, hag⟩ := hi
    cases hr : hsetAt E (h ++ [cell]) (some h.length) c ps with
    | mk h2 r =>
      rw [hr] at hu hag
      simp only at hu hag
      cases ht : (setAt E d tc ps).2 with
      | err e => rw [ht] at hag; simp only [AgreesAt] at hag; subst hag; exact ⟨upd_kept hu hs hn, rfl⟩
      | panic => rw [ht] at hag; simp only [AgreesAt] at hag; subst hag; exact ⟨upd_kept hu hs hn, rfl⟩
      | diverge => rw [ht] at hag; simp only [AgreesAt] at hag; subst hag; exact ⟨upd_kept hu hs hn, rfl⟩
      | ok l =>
        rw [ht] at hag; simp only [AgreesAt] at hag
        obtain ⟨rfl, hlead⟩ := hag
        obtain ⟨G', hG', hGn, hGsub⟩ := hu.shows
        have hFl := shows_lt hs
        have hdis : (F ++ G').Nodup := by
          refine List.nodup_append.2 ⟨by grind, hGn, ?_⟩
          intro a ha b hb hab
          subst hab
          have h1 := hFl a ha
          have h2 := hGsub a hb
          simp only [List.length_append, List.length_cons, List.length_nil, List.mem_cons, List.not_mem_nil, or_false] at h2
          rcases h2 with h2 | h2 | h2
          · omega
          · have := (List.nodup_append.1 hn).2.2 a ha a h2; exact this rfl
          · omega
        obtain ⟨⟨hu3, hag3⟩, hfr3⟩ := hlink (shows_kept hu hs hn) hG' hdis
        simp only [AgreesAt] at hag3
        cases hr3 : link h2 with
        | mk h3 r3 =>
          rw [hr3] at hu3 hag3 hfr3
          simp only at hu3 hag3 hfr3
          obtain ⟨rfl, hlead3⟩ := hag3
          simp only [hthen, hr3]
          refine ⟨upd_link hu hs hGsub hu3, rfl, ?_⟩
          cases hlead3 with
          | step _ q' _ _ _ hcp hl' =>
            cases hl'
            refine .step _ _ _ _ _ hcp ?_
            exact leads_frame hG' (fun a ha => hfr3 a (by grind)) hlead
  · simp only [h1, h2]; exact setAgrees_err hs (by grind)

theorem setAt_two (E : Env) (v c : V) (p q : Param) (qs : List Param) : setAt E v c (p :: q :: qs) =
    if p.isSlice then (v, .err .multipleParam)
    else if v.uninit || c.uninit then (v, .err .valueUninitialized)
    else match v with
      | .obj n kvs low =>
        match anyToString p with
        | .ok k =>
          match lookup k kvs with
          | some e => (v.put (.key k) (setAt E e.v c (q :: qs)).1, do let l ← (setAt E e.v c (q :: qs)).2; pure (.key k :: l))
          | none =>
            match newContainer q with
            | .ok child =>
              match (setAt E child c (q :: qs)).2 with
              | .ok l => (setKey E n kvs low k (setAt E child c (q :: qs)).1, .ok (.key k :: l))
              | .err e => (v, .err e)
              | .panic => (v, .panic)
              | .diverge => (v, .diverge)
            | .err e => (v, .err e)
            | _ => (v, .panic)
        | .err e => (v, .err e)
        | _ => (v, .panic)
      | .arr xs =>
        match anyToInt p with
        | .ok pos =>
          if posForRead xs.length pos < 0 then
            match newContainer q with
            | .ok child =>
              match (setAt E child c (q :: qs)).2 with
              | .ok l => (.arr (xs ++ [(setAt E child c (q :: qs)).1]), .ok (.idx xs.length :: l))
              | .err e => (v, .err e)
              | .panic => (v, .panic)
              | .diverge => (v, .diverge)
            | .err e => (v, .err e)
            | _ => (v, .panic)
          else match xs[(posForRead xs.length pos).toNat]? with
            | some child => (v.put (.idx (posForRead xs.length pos).toNat) (setAt E child c (q :: qs)).1,
                do let l ← (setAt E child c (q :: qs)).2; pure (.idx (posForRead xs.length pos).toNat :: l))
            | none => (v, .panic)
        | .err e => (v, .err e)
        | _ => (v, .panic)
      | _ => (v, .err .other) := by
  conv => lhs; unfold setAt
  rfl

/-- an existing step: the rest of the path is followed below the child -/
theorem hset_existing {E : Env} {ps : List Param} (ih : SetIH E ps) {h : Heap} {p v F c tc C} (hs : Hangs h p v F) (hc : Hangs h c tc C) (hn : (F ++ C).Nodup)
    {s : Step} {w : V} {q : Ptr} (hw : v.child s = some w) (hq : ChildPtr h p s q) :
    SetAgrees h F C p c (v.put s (setAt E w tc ps).1, do let l ← (setAt E w tc ps).2; pure (s :: l)) (hsetAt E h q c ps) := by
  obtain ⟨a, q', F1, G, F2, rfl, rfl, hq', hG, -⟩ := shows_focus hs hw
  obtain rfl := childPtr_det hq hq'
  have hi := ih hG hc (by grind)
  have hst := upd_child hs (by grind) (C := C) (by grind) hw hq hG (fun _ _ => hi.1)
  refine ⟨hst.1, ?_⟩
  have h2 := hi.2
  cases hr2 : (setAt E w tc ps).2 with
  | ok l =>
    rw [hr2] at h2
    exact ⟨h2.1, .step _ _ _ _ _ hst.2 h2.2⟩
  | err e => rw [hr2] at h2; exact h2
  | panic => rw [hr2] at h2; exact h2
  | diverge => rw [hr2] at h2; exact h2

theorem hset_cons {E : Env} {q r : Param} {rs : List Param} (ih : SetIH E (r :: rs)) {h : Heap} {p v F c tc C} (hs : Hangs h p v F) (hc : Hangs h c tc C)
    (hn : (F ++ C).Nodup) : SetAgrees h F C p c (setAt E v tc (q :: r :: rs)) (hsetAt E h p c (q :: r :: rs)) := by
  have hnF : F.Nodup := by grind
  rw [setAt_two]
  unfold hsetAt
  simp only
  by_cases hq : q.isSlice = true
  · rw [if_pos hq, if_pos hq]; exact setAgrees_err hs hnF
  rw [if_neg hq, if_neg hq, shows_uninit hs, shows_uninit hc]
  by_cases hu : (v.uninit || tc.uninit) = true
  · rw [if_pos hu, if_pos hu]; exact setAgrees_err hs hnF
  rw [if_neg hu, if_neg hu]
  cases hs with
  | nil => exact absurd rfl hu
  | node a cell v G ha hsh hl =>
    have hs := Hangs.node a cell v G ha hsh hl
    have herr : ∀ e : Err, SetAgrees h (a :: G) C (some a) c (v, .err e) (h, .err e) := fun e => setAgrees_err hs hnF
    have hpan : SetAgrees h (a :: G) C (some a) c (v, .panic) (h, .panic) := setAgrees_panic hs hnF
    simp only [ha]
    cases cell <;> cases v <;> try exact hsh.elim
    all_goals try exact herr _
    · rename_i ps xs
      simp only [kids, treeKids] at hl
      have hlen := showsL_length hl
      simp only
      cases hz : anyToInt q with
      | err e => exact herr e
      | panic => exact hpan
      | diverge => exact hpan
      | ok pos =>
        simp only [hlen]
        by_cases hneg : posForRead xs.length pos < 0
        · simp only [hneg, if_true]
          refine hset_missing ih hs hc hn (s := .idx xs.length) (link := fun h' => hpush h' a (some h.length)) (tlink := fun w => .arr (xs ++ [w])) ?_
          intro h2 w G' hs2 hw hn2
          obtain ⟨a', ps', G2, he, hF2, ha2, hl2⟩ := shows_arr hs2
          cases he; cases hF2
          simp only [hpush, ha2]
          exact ⟨hpush_refines ha2 hl2 hw hn2, fun b hb => List.getElem?_set_ne (by grind)⟩
        · simp only [hneg, if_false]
          by_cases hlt : (posForRead xs.length pos).toNat < xs.length
          · have hlt' : (posForRead xs.length pos).toNat < ps.length := by omega
            simp only [List.getElem?_eq_getElem hlt', List.getElem?_eq_getElem hlt]
            exact hset_existing ih hs hc hn (List.getElem?_eq_getElem hlt) (.idx a ps _ _ ha (List.getElem?_eq_getElem hlt'))
          · rw [List.getElem?_eq_none (by omega), List.getElem?_eq_none (by omega)]
            exact hpan
    · rename_i n kvs low n' es low'
      obtain ⟨rfl, rfl, hk⟩ := hsh
      simp only [kids, treeKids] at hl
      simp only
      cases hz : anyToString q with
      | err e => exact herr e
      | panic => exact hpan
      | diverge => exact hpan
      | ok k =>
        simp only
        cases hlk : lookup k es with
        | none =>
          have hlk' : hlookup k kvs = none := by
            rw [lookup_keyIdx] at hlk
            rw [hlookup_keyIdx, SameKeys.keys hk]
            cases hi : keyIdx k (es.map Ent.key) with
            | none => rfl
            | some i =>
              have h1 := keyIdx_lt hi
              rw [hi] at hlk
              simp at hlk h1
              omega
          simp only [hlk']
          refine hset_missing ih hs hc hn (s := .key k) (link := fun h' => hsetKey E h' a k (some h.length)) (tlink := fun w => setKey E n es low k w) ?_
          intro h2 w G' hs2 hw hn2
          obtain ⟨a', kvs', G2, he, hF2, ha2, hk2, hl2⟩ := shows_obj hs2
          cases he; cases hF2
          refine ⟨hsetKey_refines k ha2 hk2 hl2 hw hn2, fun b hb => ?_⟩
          simp only [hsetKey, ha2]
          exact List.getElem?_set_ne (by grind)
        | some e =>
          obtain ⟨x, hx⟩ := hlookup_some hk (k := k) (by rw [hlk]; rfl)
          simp only [hx]
          exact hset_existing ih hs hc hn (by simp [V.child, hlk]) (.key a n kvs low k x ha (by rw [← hlookup_find]; exact hx))

mutual
theorem hsetAt1_refines {E : Env} : ∀ (q : Param) {h : Heap} {p v F c tc C}, Hangs h p v F → Hangs h c tc C → (F ++ C).Nodup →
    SetAgrees h F C p c (setAt1 E v tc q) (hsetAt1 E h p c q)
  | .slice [], h, p, v, F, c, tc, C, hs, hc, hn => by
    simp only [setAt1, hsetAt1, List.isEmpty_nil, if_true]; exact hsetAt1_plain_refines .nil hs hc hn
  | .slice (q :: qs), h, p, v, F, c, tc, C, hs, hc, hn => by
    simp only [setAt1, hsetAt1, List.isEmpty_cons, Bool.false_eq_true, if_false]; exact hsetAt_refines (q :: qs) hs hc hn
  | .nil, h, p, v, F, c, tc, C, hs, hc, hn => by simp only [setAt1, hsetAt1]; exact hsetAt1_plain_refines .nil hs hc hn
  | .int i, h, p, v, F, c, tc, C, hs, hc, hn => by simp only [setAt1, hsetAt1]; exact hsetAt1_plain_refines (.int i) hs hc hn
  | .uint i, h, p, v, F, c, tc, C, hs, hc, hn => by simp only [setAt1, hsetAt1]; exact hsetAt1_plain_refines (.uint i) hs hc hn
  | .str i, h, p, v, F, c, tc, C, hs, hc, hn => by simp only [setAt1, hsetAt1]; exact hsetAt1_plain_refines (.str i) hs hc hn
  | .other, h, p, v, F, c, tc, C, hs, hc, hn => by simp only [setAt1, hsetAt1]; exact hsetAt1_plain_refines .other hs hc hn
termination_by structural q => q
theorem hsetAt_refines {E : Env} : ∀ (ps : List Param) {h : Heap} {p v F c tc C}, Hangs h p v F → Hangs h c tc C → (F ++ C).Nodup →
    SetAgrees h F C p c (setAt E v tc ps) (hsetAt E h p c ps)
  | [], h, p, v, F, c, tc, C, hs, hc, hn => setAgrees_panic hs (by grind)
  | [q], h, p, v, F, c, tc, C, hs, hc, hn => by
    rw [setAt_one]; unfold hsetAt; exact hsetAt1_refines q hs hc hn
  | q :: q' :: qs, h, p, v, F, c, tc, C, hs, hc, hn => hset_cons (fun hs hc hn => hsetAt_refines (q' :: qs) hs hc hn) hs hc hn
termination_by structural ps => ps
end

end JV
