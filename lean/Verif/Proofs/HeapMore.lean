import Verif.Proofs.HeapSet
/-!
Insert, Append and Delete on the heap do what they do on trees.
-/
namespace JV
open Spec

theorem leads_append {h : Heap} : ∀ {l m p q r}, Leads h p l q → Leads h q m r → Leads h p (l ++ m) r
  | [], _, _, _, _, h1, h2 => by cases h1; exact h2
  | s :: l, _, _, _, _, h1, h2 => by
    cases h1 with | step _ x _ _ _ hc hl => exact .step _ x _ _ _ hc (leads_append hl h2)

/-- an operation on the node at a location is an operation on the whole -/
theorem modify_upd {α : Type} {f : V → V × R α} {h : Heap} {C : List Nat} : ∀ {l : List Step} {p v F w q}, Hangs h p v F → F.Nodup → (∀ x ∈ C, x ∉ F) →
    v.at l = some w → Leads h p l q →
    ∃ G, Hangs h q w G ∧ G.Nodup ∧ (∀ x ∈ G, x ∈ F) ∧ (v.modify f l).2 = (f w).2 ∧
      ∀ h', Upd h G C h' q (f w).1 → Upd h F C h' p (v.modify f l).1 ∧ Leads h' p l q
  | [], p, v, F, w, q, hs, hn, hd, hw, hl => by
    cases hl; cases hw
    exact ⟨F, hs, hn, fun x hx => hx, rfl, fun h' hu => ⟨hu, .here _⟩⟩
  | s :: l, p, v, F, w, q, hs, hn, hd, hw, hl => by
    cases hl with
    | step _ r _ _ _ hc hl =>
      simp only [V.at] at hw
      cases hv : v.child s with
      | none => rw [hv] at hw; cases hw
      | some d =>
        rw [hv] at hw; simp only at hw
        obtain ⟨a, r', F1, K, F2, rfl, rfl, hc', hK, -⟩ := shows_focus hs hv
        obtain rfl := childPtr_det hc hc'
        obtain ⟨G, h1, h2, h3, h4, h5⟩ := modify_upd (f := f) hK (by grind) (C := C) (by grind) hw hl
        refine ⟨G, h1, h2, by grind, by simp only [V.modify, hv]; exact h4, ?_⟩
        intro h' hu
        simp only [V.modify, hv]
        obtain ⟨hu', hl'⟩ := h5 h' hu
        have := upd_child hs hn hd hv hc hK (fun _ _ => hu')
        exact ⟨this.1, .step _ _ _ _ _ this.2 hl'⟩

/-- an operation that leaves the inserted value alone -/
theorem upd_other {h h1 : Heap} {F C p v c tc} (hu : Upd h F [] h1 p v) (hc : Hangs h c tc C) (hn : (F ++ C).Nodup) :
    ∃ F', Hangs h1 p v F' ∧ Hangs h1 c tc C ∧ (F' ++ C).Nodup ∧ ∀ a ∈ F', a ∈ F ∨ a ∈ ([] : List Nat) ∨ h.length ≤ a := by
  obtain ⟨F', h2, h3, h4⟩ := hu.shows
  have hlt := shows_lt hc
  refine ⟨F', h2, shows_frame hc fun a ha => hu.frame a (hlt a ha) (by grind) (by simp), ?_, h4⟩
  refine List.nodup_append.2 ⟨h3, by grind, ?_⟩
  intro a ha b hb hab
  subst hab
  rcases h4 a ha with h | h | h
  · exact (List.nodup_append.1 hn).2.2 a h a hb rfl
  · cases h
  · have := hlt a hb; omega

/-- first find the node, then work on it -/
theorem then_refines {h : Heap} {F C p v c tc} {r1 : Heap × R Ptr} {l : List Step} {w : V} {f : V → V × R (List Step)} {g : Heap → Ptr → Heap × R Ptr}
    (hget : GetAgrees h F p (v, .ok l) r1) (hc : Hangs h c tc C) (hn : (F ++ C).Nodup) (hw : v.at l = some w)
    (hop : ∀ {h1 : Heap} {q G}, Hangs h1 q w G → Hangs h1 c tc C → (G ++ C).Nodup → SetAgrees h1 G C q c (f w) (g h1 q)) :
    SetAgrees h F C p c (prefixLoc l (v.modify f l)) (hthen r1 g) := by
  obtain ⟨hu, q, hq, hl⟩ := hget
  simp only at hu hq hl
  obtain ⟨h1, r⟩ := r1
  simp only at hu hq hl
  subst hq
  simp only [hthen]
  obtain ⟨F', hs', hc', hn', hsub⟩ := upd_other hu hc hn
  obtain ⟨G, hG, hGn, hGF, hres, hk⟩ := modify_upd (f := f) hs' (by grind) (C := C) (by grind) hw hl
  have hop := hop hG hc' (by grind)
  obtain ⟨hu2, hl2⟩ := hk _ hop.1
  refine ⟨?_, ?_⟩
  · refine upd_trans (upd_nil_mono hu) fun F'' hs'' _ _ => ?_
    obtain ⟨-, rfl⟩ := shows_det hs' hs''
    exact hu2
  · have hr := hop.2
    simp only [prefixLoc, hres]
    cases hf : (f w).2 with
    | ok m =>
      rw [hf] at hr
      exact ⟨hr.1, leads_append hl2 hr.2⟩
    | err e => rw [hf] at hr; exact hr
    | panic => rw [hf] at hr; exact hr
    | diverge => rw [hf] at hr; exact hr

theorem shows_ptr {h : Heap} {p v F} (hs : Hangs h p v F) : (p = none ∧ v = .nilp) ∨ ∃ a c, p = some a ∧ h[a]? = some c ∧ SameShape c v := by
  cases hs with
  | nil => exact .inl ⟨rfl, rfl⟩
  | node a c v G h1 h2 h3 => exact .inr ⟨a, c, rfl, h1, h2⟩

theorem leads_shows {h : Heap} : ∀ {l : List Step} {p v F w q}, Hangs h p v F → v.at l = some w → Leads h p l q → ∃ G, Hangs h q w G ∧ ∀ x ∈ G, x ∈ F
  | [], p, v, F, w, q, hs, hw, hl => by cases hl; cases hw; exact ⟨F, hs, fun x hx => hx⟩
  | s :: l, p, v, F, w, q, hs, hw, hl => by
    cases hl with
    | step _ r _ _ _ hc hl =>
      simp only [V.at] at hw
      cases hv : v.child s with
      | none => rw [hv] at hw; cases hw
      | some d =>
        rw [hv] at hw; simp only at hw
        obtain ⟨a, r', F1, K, F2, rfl, rfl, hc', hK, -⟩ := shows_focus hs hv
        obtain rfl := childPtr_det hc hc'
        obtain ⟨G, h1, h2⟩ := leads_shows hK hw hl
        exact ⟨G, h1, by grind⟩

theorem leads_at {h : Heap} : ∀ {l : List Step} {p v F q}, Hangs h p v F → Leads h p l q → ∃ w, v.at l = some w
  | [], p, v, F, q, hs, hl => ⟨v, rfl⟩
  | s :: l, p, v, F, q, hs, hl => by
    cases hl with
    | step _ r _ _ _ hc hl =>
      cases hs with
      | nil => cases hc
      | node a c v G ha hsh hk =>
        have hs := Hangs.node a c v G ha hsh hk
        have hv : ∃ d, v.child s = some d := by
          cases hc with
          | idx _ xs i _ hb hi =>
            rw [ha] at hb; cases hb
            cases v <;> try exact hsh.elim
            simp only [kids, treeKids] at hk
            have hlt := (List.getElem?_eq_some_iff.1 hi).1
            rw [showsL_length hk] at hlt
            exact ⟨_, List.getElem?_eq_getElem hlt⟩
          | key _ n kvs low k e hb he =>
            rw [ha] at hb; cases hb
            cases v <;> try exact hsh.elim
            rename_i n' es low'
            obtain ⟨rfl, rfl, h4⟩ := hsh
            simp only [V.child, lookup_keyIdx]
            rw [← hlookup_find, hlookup_keyIdx, SameKeys.keys h4] at he
            cases hi : keyIdx k (es.map Ent.key) with
            | none => rw [hi] at he; cases he
            | some i => have := keyIdx_lt hi; simp at this; simp [this]
        obtain ⟨d, hd⟩ := hv
        obtain ⟨a', r', F1, K, F2, he, hF, hc', hK, -⟩ := shows_focus hs hd
        obtain rfl := childPtr_det hc hc'
        obtain ⟨w, hw⟩ := leads_at hK hl
        exact ⟨w, by simp [V.at, hd, hw]⟩

theorem hgetArray_refines {E : Env} {h : Heap} {p v F} (ps : List Param) (hs : Hangs h p v F) (hn : F.Nodup) :
    GetAgrees h F p (v, locArray E v ps) (hgetArray E h p ps) := by
  have hg := hget_refines (E := E) (cl := false) ps hs hn
  unfold GetAgrees at hg
  rw [resolve_plain] at hg
  unfold hgetArray locArray
  obtain ⟨hu, hag⟩ := hg
  cases hr : hget E false h p ps with
  | mk h1 r =>
    rw [hr] at hu hag
    cases ht : (resolve E false v ps).2 with
    | ok l =>
      rw [ht] at hag
      obtain ⟨q, hq, hl⟩ := hag
      simp only at hq hl hu
      subst hq
      simp only [hthen]
      obtain ⟨F', hs', hn', -⟩ := hu.shows
      obtain ⟨w, hw⟩ := leads_at hs' hl
      obtain ⟨G, hG, -⟩ := leads_shows hs' hw hl
      rw [hw]
      rcases shows_ptr hG with ⟨rfl, rfl⟩ | ⟨b, cell, rfl, hb, hsh⟩
      · exact ⟨hu, rfl⟩
      · simp only [hb]
        cases cell <;> cases w <;> try exact hsh.elim
        all_goals first | exact ⟨hu, rfl⟩ | exact ⟨hu, _, rfl, hl⟩
    | err e => rw [ht] at hag; simp only [Agrees] at hag; subst hag; exact ⟨hu, rfl⟩
    | panic => rw [ht] at hag; simp only [Agrees] at hag; subst hag; exact ⟨hu, rfl⟩
    | diverge => rw [ht] at hag; simp only [Agrees] at hag; subst hag; exact ⟨hu, rfl⟩

theorem locArray_at {E : Env} {v : V} {ps : List Param} {l : List Step} (h : locArray E v ps = .ok l) : ∃ xs, v.at l = some (.arr xs) := by
  unfold locArray at h
  cases ht : (resolve E false v ps).2 with
  | ok m =>
    rw [ht] at h
    simp only at h
    cases hw : v.at m with
    | none => rw [hw] at h; cases h
    | some w =>
      rw [hw] at h
      cases w <;> simp only at h <;> cases h
      exact ⟨_, hw⟩
  | err e => rw [ht] at h; cases h
  | panic => rw [ht] at h; cases h
  | diverge => rw [ht] at h; cases h

/-! ## Insert -/

theorem posAfter_bound {n : Nat} {z : Int} (h : ¬ (posForInsertAfter n z).1 < 0) (h2 : (posForInsertAfter n z).2 = false) : (posForInsertAfter n z).1.toNat ≤ n := by
  unfold posForInsertAfter at *
  split at h <;> rename_i h1
  · simp at h
  · rw [if_neg h1] at h2 ⊢
    split at h <;> rename_i h3
    · rw [if_pos h3] at h2; cases h2
    · rw [if_neg h3]
      split
      · simp only; split <;> simp only <;> omega
      · split <;> simp only <;> omega

theorem posBefore_bound {n : Nat} {z : Int} (h : ¬ posForInsertBefore n z < 0) : (posForInsertBefore n z).toNat ≤ n := by
  unfold posForInsertBefore at *
  split
  · simp
  · split
    · simp
    · split
      · simp only; split <;> omega
      · split <;> omega

theorem hinsertLast_refines {after : Bool} {h : Heap} {p v F c tc C} (q : Param) (hs : Hangs h p v F) (hc : Hangs h c tc C) (hn : (F ++ C).Nodup) :
    SetAgrees h F C p c (insertLast after v tc q) (hinsertLast after h p c q) := by
  cases hs with
  | nil => cases after <;> exact ⟨upd_refl .nil (by simp), rfl⟩
  | node a cell v G ha hsh hl =>
    have hs := Hangs.node a cell v G ha hsh hl
    have hnF : (a :: G).Nodup := by grind
    have herr : ∀ e : Err, SetAgrees h (a :: G) C (some a) c (v, .err e) (h, .err e) := fun e => setAgrees_err hs hnF
    have hpan : SetAgrees h (a :: G) C (some a) c (v, .panic) (h, .panic) := setAgrees_panic hs hnF
    cases cell <;> cases v <;> try exact hsh.elim
    all_goals try (simp only [hinsertLast, ha, insertLast]; exact herr _)
    rename_i ps xs
    simp only [kids, treeKids] at hl
    have hlen := showsL_length hl
    have hlt := (List.getElem?_eq_some_iff.1 ha).1
    simp only [hinsertLast, ha, insertLast]
    cases hz : anyToInt q with
    | err e => exact herr e
    | panic => exact hpan
    | diverge => exact hpan
    | ok pos =>
      simp only [hlen]
      generalize hq : (if after = true then posForInsertAfter xs.length pos else (posForInsertBefore xs.length pos, false)) = qq
      by_cases hneg : qq.1 < 0
      · simp only [hneg, if_true]; exact herr _
      · simp only [hneg, if_false]
        by_cases hend : qq.2 = true
        · simp only [hend, if_true]; exact hpush_refines ha hl hc hn
        · simp only [hend, if_false]
          have hb : qq.1.toNat ≤ xs.length := by
            cases after
            · simp only [Bool.false_eq_true, if_false] at hq; subst hq; exact posBefore_bound hneg
            · simp only [if_true] at hq; subst hq; exact posAfter_bound hneg (by simpa using hend)
          rw [insertToArr_eq _ _ _ hb, insertToArr_eq _ _ _ (by omega)]
          refine ⟨upd_write_arr ha hl (by grind) (by grind) (edit_insert qq.1.toNat hl hc (by grind)), rfl, ?_⟩
          refine .step _ c _ _ _ ?_ (.here c)
          refine .idx a _ _ c (List.getElem?_set_self hlt) ?_
          rw [List.getElem?_append_right (by simp; omega)]
          simp [Nat.min_eq_left (show qq.1.toNat ≤ ps.length by omega)]

theorem SetAgrees.of_get_fail {h : Heap} {F C p c v} {h1 : Heap} {t : R (List Step)} {r : R Ptr} (hg : GetAgrees h F p (v, t) (h1, r)) (ht : ∀ l, t ≠ .ok l) :
    SetAgrees h F C p c (v, t) (h1, r) := by
  refine ⟨upd_nil_mono hg.1, ?_⟩
  have h2 := hg.2
  cases t with
  | ok l => exact absurd rfl (ht l)
  | err e => exact h2
  | panic => exact h2
  | diverge => exact h2

theorem hthen_fail {h1 : Heap} {r : R Ptr} {g : Heap → Ptr → Heap × R Ptr} (hr : ∀ q, r ≠ .ok q) : hthen (h1, r) g = (h1, r) := by
  cases r with
  | ok q => exact absurd rfl (hr q)
  | err e => rfl
  | panic => rfl
  | diverge => rfl

theorem agrees_fail {h : Heap} {p : Ptr} {t : R (List Step)} {r : R Ptr} (ha : Agrees h p t r) (ht : ∀ l, t ≠ .ok l) : ∀ q, r ≠ .ok q := by
  intro q hq
  subst hq
  cases t with
  | ok l => exact absurd rfl (ht l)
  | err e => cases ha
  | panic => cases ha
  | diverge => cases ha

/-- find the array, then work on it -/
theorem getArray_then {E : Env} {h : Heap} {F C p v c tc} (hs : Hangs h p v F) (hc : Hangs h c tc C) (hn : (F ++ C).Nodup) (ps : List Param)
    {f : V → V × R (List Step)} {g : Heap → Ptr → Heap × R Ptr}
    (hop : ∀ {h1 : Heap} {q xs G}, Hangs h1 q (.arr xs) G → Hangs h1 c tc C → (G ++ C).Nodup → SetAgrees h1 G C q c (f (.arr xs)) (g h1 q)) :
    SetAgrees h F C p c
      (match locArray E v ps with
        | .ok l => prefixLoc l (v.modify f l)
        | .err e => (v, .err e)
        | .panic => (v, .panic)
        | .diverge => (v, .diverge))
      (hthen (hgetArray E h p ps) g) := by
  have hg := hgetArray_refines (E := E) ps hs (by grind)
  cases hr : hgetArray E h p ps with
  | mk h1 r =>
    rw [hr] at hg
    cases ht : locArray E v ps with
    | ok l =>
      rw [ht] at hg
      obtain ⟨xs, hw⟩ := locArray_at ht
      exact then_refines hg hc hn hw hop
    | err e =>
      rw [ht] at hg
      rw [hthen_fail (agrees_fail hg.2 (by simp))]
      exact .of_get_fail hg (by simp)
    | panic =>
      rw [ht] at hg
      rw [hthen_fail (agrees_fail hg.2 (by simp))]
      exact .of_get_fail hg (by simp)
    | diverge =>
      rw [ht] at hg
      rw [hthen_fail (agrees_fail hg.2 (by simp))]
      exact .of_get_fail hg (by simp)

theorem hinsert_last_step {E : Env} {after : Bool} {q : Param} {pre : List Param} {h : Heap} {p v F c tc C} (hs : Hangs h p v F) (hc : Hangs h c tc C) (hn : (F ++ C).Nodup)
    (ih : ∀ {h : Heap} {p v F c tc C}, Hangs h p v F → Hangs h c tc C → (F ++ C).Nodup → SetAgrees h F C p c (insertAt1 E after v tc q) (hinsertAt1 E after h p c q)) :
    SetAgrees h F C p c (insertAt E after v tc pre [q]) (hinsertAt E after h p c pre [q]) := by
  have hnF : F.Nodup := by grind
  unfold insertAt hinsertAt
  simp only [List.isEmpty_nil, Bool.not_true, Bool.false_eq_true, if_false]
  cases pre with
  | nil => exact ih hs hc hn
  | cons first pre =>
    simp only
    by_cases hf : first.isSlice = true
    · rw [if_pos hf, if_pos hf]; exact setAgrees_err hs hnF
    · rw [if_neg hf, if_neg hf]
      cases hs with
      | nil => cases after <;> exact ⟨upd_refl .nil (by simp), rfl⟩
      | node a cell v G ha hsh hl =>
        have hs := Hangs.node a cell v G ha hsh hl
        simp only [shows_uninit hs]
        cases v with
        | nilp => cases (shows_nilp hs).1
        | notExist => exact setAgrees_err hs hnF
        | str s => exact getArray_then hs hc hn _ fun hs hc hn => ih hs hc hn
        | num s n => exact getArray_then hs hc hn _ fun hs hc hn => ih hs hc hn
        | bool b => exact getArray_then hs hc hn _ fun hs hc hn => ih hs hc hn
        | null => exact getArray_then hs hc hn _ fun hs hc hn => ih hs hc hn
        | arr xs => exact getArray_then hs hc hn _ fun hs hc hn => ih hs hc hn
        | obj n es low => exact getArray_then hs hc hn _ fun hs hc hn => ih hs hc hn

mutual
theorem hinsertAt1_refines {E : Env} {after : Bool} : ∀ (q : Param) {h : Heap} {p v F c tc C}, Hangs h p v F → Hangs h c tc C → (F ++ C).Nodup →
    SetAgrees h F C p c (insertAt1 E after v tc q) (hinsertAt1 E after h p c q)
  | .slice [], h, p, v, F, c, tc, C, hs, hc, hn => by
    simp only [insertAt1, hinsertAt1, List.isEmpty_nil, if_true]; exact hinsertLast_refines .nil hs hc hn
  | .slice (q :: qs), h, p, v, F, c, tc, C, hs, hc, hn => by
    simp only [insertAt1, hinsertAt1, List.isEmpty_cons, Bool.false_eq_true, if_false]; exact hinsertAt_refines (q :: qs) [] hs hc hn
  | .nil, h, p, v, F, c, tc, C, hs, hc, hn => by simp only [insertAt1, hinsertAt1]; exact hinsertLast_refines .nil hs hc hn
  | .int i, h, p, v, F, c, tc, C, hs, hc, hn => by simp only [insertAt1, hinsertAt1]; exact hinsertLast_refines (.int i) hs hc hn
  | .uint i, h, p, v, F, c, tc, C, hs, hc, hn => by simp only [insertAt1, hinsertAt1]; exact hinsertLast_refines (.uint i) hs hc hn
  | .str i, h, p, v, F, c, tc, C, hs, hc, hn => by simp only [insertAt1, hinsertAt1]; exact hinsertLast_refines (.str i) hs hc hn
  | .other, h, p, v, F, c, tc, C, hs, hc, hn => by simp only [insertAt1, hinsertAt1]; exact hinsertLast_refines .other hs hc hn
termination_by structural q => q
theorem hinsertAt_refines {E : Env} {after : Bool} : ∀ (ps pre : List Param) {h : Heap} {p v F c tc C}, Hangs h p v F → Hangs h c tc C → (F ++ C).Nodup →
    SetAgrees h F C p c (insertAt E after v tc pre ps) (hinsertAt E after h p c pre ps)
  | [], pre, h, p, v, F, c, tc, C, hs, hc, hn => setAgrees_panic hs (by grind)
  | [q], pre, h, p, v, F, c, tc, C, hs, hc, hn => hinsert_last_step hs hc hn fun hs hc hn => hinsertAt1_refines q hs hc hn
  | q :: q' :: qs, pre, h, p, v, F, c, tc, C, hs, hc, hn => by
    unfold insertAt hinsertAt
    simp only [List.isEmpty_cons, Bool.not_false, if_true]
    exact hinsertAt_refines (q' :: qs) (pre ++ [q]) hs hc hn
termination_by structural ps => ps
end

/-! ## Append -/

theorem happendTo_refines {beg : Bool} {h : Heap} {p xs F c tc C} (hs : Hangs h p (.arr xs) F) (hc : Hangs h c tc C) (hn : (F ++ C).Nodup) :
    SetAgrees h F C p c (appendTo beg (.arr xs) tc) (happendTo beg h p c) := by
  obtain ⟨a, ps, G, rfl, rfl, ha, hl⟩ := shows_arr hs
  have hlen := showsL_length hl
  have hlt := (List.getElem?_eq_some_iff.1 ha).1
  have he : ps.isEmpty = xs.isEmpty := by cases ps <;> cases xs <;> first | rfl | (simp at hlen)
  simp only [happendTo, ha, appendTo, he]
  by_cases hb : (beg && !xs.isEmpty) = true
  · rw [if_pos hb, if_pos hb, insertToArr_eq _ _ _ (Nat.zero_le _), insertToArr_eq _ _ _ (Nat.zero_le _)]
    refine ⟨upd_write_arr ha hl (by grind) (by grind) (edit_insert 0 hl hc (by grind)), rfl, ?_⟩
    refine .step _ c _ _ _ ?_ (.here c)
    exact .idx a _ _ c (List.getElem?_set_self hlt) (by simp)
  · rw [if_neg hb, if_neg hb]
    exact hpush_refines ha hl hc hn

theorem setAgrees_after {h h1 : Heap} {F C p v c tc} {t : V × R (List Step)} {r : Heap × R Ptr} (hu : Upd h F [] h1 p v) (hc : Hangs h c tc C) (hn : (F ++ C).Nodup)
    (k : ∀ {F'}, Hangs h1 p v F' → Hangs h1 c tc C → (F' ++ C).Nodup → SetAgrees h1 F' C p c t r) : SetAgrees h F C p c t r := by
  obtain ⟨F', hs', hc', hn', -⟩ := upd_other hu hc hn
  have hk := k hs' hc' hn'
  refine ⟨upd_trans (upd_nil_mono hu) fun F'' hs'' _ _ => ?_, hk.2⟩
  obtain ⟨-, rfl⟩ := shows_det hs' hs''
  exact hk.1

/-- a new object was part of the operation -/
theorem upd_new {h h2 : Heap} {cell : Cell} {F p v v'} (hs : Hangs h p v F) (hu : Upd (h ++ [cell]) F [h.length] h2 p v') : Upd h F [] h2 p v' := by
  have hl := hu.len
  simp only [List.length_append, List.length_cons, List.length_nil] at hl
  refine ⟨by omega, ?_, ?_⟩
  · intro a ha hF _
    rw [hu.frame a (by simp; omega) hF (by simp; omega), List.getElem?_append_left ha]
  · obtain ⟨F', h1, h2, h3⟩ := hu.shows
    refine ⟨F', h1, h2, fun a ha => ?_⟩
    have := h3 a ha
    simp only [List.length_append, List.length_cons, List.length_nil, List.mem_cons, List.not_mem_nil, or_false] at this
    rcases this with h | h | h
    · exact .inl h
    · exact .inr (.inr (by omega))
    · exact .inr (.inr (by omega))

theorem happendPath_refines {E : Env} {beg : Bool} {h : Heap} {p v F c tc C} (ps : List Param) (hs : Hangs h p v F) (hc : Hangs h c tc C) (hn : (F ++ C).Nodup) :
    SetAgrees h F C p c (appendPath E beg v tc ps) (happendPath E beg h p c ps) := by
  have hg := hgetArray_refines (E := E) ps hs (by grind)
  unfold appendPath happendPath
  cases hr : hgetArray E h p ps with
  | mk h1 r =>
    rw [hr] at hg
    cases ht : locArray E v ps with
    | ok l =>
      rw [ht] at hg
      obtain ⟨xs, hw⟩ := locArray_at ht
      have hx := then_refines (f := fun a => appendTo beg a tc) (g := fun h q => happendTo beg h q c) hg hc hn hw fun hs hc hn => happendTo_refines hs hc hn
      obtain ⟨q, hq, -⟩ := hg.2
      simp only at hq
      subst hq
      exact hx
    | panic => rw [ht] at hg; have := hg.2; simp only [Agrees] at this; subst this; exact .of_get_fail hg (by simp)
    | diverge => rw [ht] at hg; have := hg.2; simp only [Agrees] at this; subst this; exact .of_get_fail hg (by simp)
    | err e =>
      rw [ht] at hg
      have h2 := hg.2
      simp only [Agrees] at h2
      subst h2
      by_cases he : e = .notFound
      · subst he
        simp only
        have hu0 : Upd h F [] h1 p v := hg.1
        refine setAgrees_after hu0 hc hn ?_
        intro F' hs1 hc1 hn1
        have hb : Hangs (h1 ++ [.arr []]) (some h1.length) newArray [h1.length] := shows_mk_arr (by simp) .nil
        have hFl := shows_lt hs1
        have hset := hsetAt_refines (E := E) ps (shows_ext (.arr []) hs1) hb (by
          refine List.nodup_append.2 ⟨by grind, by simp, ?_⟩
          intro a ha b hb hab
          have := hFl a ha
          simp at hb
          omega)
        obtain ⟨hu, hag⟩ := hset
        have hu' := upd_new hs1 hu
        cases hr2 : hsetAt E (h1 ++ [.arr []]) p (some h1.length) ps with
        | mk h2 r2 =>
          rw [hr2] at hag hu'
          cases ht2 : setAt E v newArray ps with
          | mk v' t2 =>
            rw [ht2] at hag hu'
            simp only at hag hu'
            cases t2 with
            | err e => simp only [AgreesAt] at hag; subst hag; exact ⟨upd_nil_mono hu', rfl⟩
            | panic => simp only [AgreesAt] at hag; subst hag; exact ⟨upd_nil_mono hu', rfl⟩
            | diverge => simp only [AgreesAt] at hag; subst hag; exact ⟨upd_nil_mono hu', rfl⟩
            | ok l =>
              obtain ⟨rfl, hlead⟩ := hag
              have hat : v'.at l = some newArray := by
                rcases setAt_spec E newArray ps v with rfl | hsp
                · rw [show setAt E v newArray [] = (v, .panic) by unfold setAt; rfl] at ht2; cases ht2
                · rw [ht2] at hsp
                  rcases hsp with ⟨l', h1', h2'⟩ | ⟨e, he⟩
                  · cases h1'; exact setsTo_at h2'
                  · cases he
              exact then_refines (r1 := (h2, .ok (some h1.length))) (f := fun a => appendTo beg a tc) (g := fun h q => happendTo beg h q c) ⟨hu', _, rfl, hlead⟩ hc1 hn1 hat
                fun hs hc hn => happendTo_refines hs hc hn
      · have hx : SetAgrees h F C p c (v, .err e) (h1, .err e) := .of_get_fail hg (by simp)
        cases e <;> first | exact absurd rfl he | exact hx

theorem happend_nil {E : Env} {beg : Bool} {h : Heap} {p v F c tc C} (hs : Hangs h p v F) (hc : Hangs h c tc C) (hn : (F ++ C).Nodup) :
    SetAgrees h F C p c (appendAt E beg v tc []) (happendAt E beg h p c []) := by
  have hnF : F.Nodup := by grind
  unfold appendAt happendAt
  cases hs with
  | nil => cases beg <;> exact ⟨upd_refl .nil (by simp), rfl⟩
  | node a cell v G ha hsh hl =>
    have hs := Hangs.node a cell v G ha hsh hl
    have herr : ∀ e : Err, SetAgrees h (a :: G) C (some a) c (v, .err e) (h, .err e) := fun e => setAgrees_err hs hnF
    simp only [ha]
    cases cell <;> cases v <;> try exact hsh.elim
    all_goals try exact herr _
    exact happendTo_refines hs hc hn

theorem happend_cons {E : Env} {beg : Bool} {q : Param} {qs : List Param} {h : Heap} {p v F c tc C} (hs : Hangs h p v F) (hc : Hangs h c tc C) (hn : (F ++ C).Nodup)
    (ih : SetAgrees h F C p c (appendAt1 E beg v tc q) (happendAt1 E beg h p c q)) :
    SetAgrees h F C p c (appendAt E beg v tc (q :: qs)) (happendAt E beg h p c (q :: qs)) := by
  have hnF : F.Nodup := by grind
  unfold appendAt happendAt
  cases hs with
  | nil => cases beg <;> exact ⟨upd_refl .nil (by simp), rfl⟩
  | node a cell v G ha hsh hl =>
    have hs := Hangs.node a cell v G ha hsh hl
    have herr : ∀ e : Err, SetAgrees h (a :: G) C (some a) c (v, .err e) (h, .err e) := fun e => setAgrees_err hs hnF
    simp only [shows_uninit hs]
    have hgo : SetAgrees h (a :: G) C (some a) c
        (if (q.isSlice && !qs.isEmpty) = true then (v, .err .multipleParam) else if q.isSlice = true then appendAt1 E beg v tc q else appendPath E beg v tc (q :: qs))
        (if (q.isSlice && !qs.isEmpty) = true then (h, .err .multipleParam) else if q.isSlice = true then happendAt1 E beg h (some a) c q
          else happendPath E beg h (some a) c (q :: qs)) := by
      by_cases h1 : (q.isSlice && !qs.isEmpty) = true
      · rw [if_pos h1, if_pos h1]; exact herr _
      · rw [if_neg h1, if_neg h1]
        by_cases h2 : q.isSlice = true
        · rw [if_pos h2, if_pos h2]; exact ih
        · rw [if_neg h2, if_neg h2]; exact happendPath_refines _ hs hc hn
    cases v with
    | nilp => cases (shows_nilp hs).1
    | notExist => exact herr _
    | str s => exact hgo
    | num s n => exact hgo
    | bool b => exact hgo
    | null => exact hgo
    | arr xs => exact hgo
    | obj n es low => exact hgo

mutual
theorem happendAt1_refines {E : Env} {beg : Bool} : ∀ (q : Param) {h : Heap} {p v F c tc C}, Hangs h p v F → Hangs h c tc C → (F ++ C).Nodup →
    SetAgrees h F C p c (appendAt1 E beg v tc q) (happendAt1 E beg h p c q)
  | .slice qs, h, p, v, F, c, tc, C, hs, hc, hn => by simp only [appendAt1, happendAt1]; exact happendAt_refines qs hs hc hn
  | .nil, h, p, v, F, c, tc, C, hs, hc, hn => by simp only [appendAt1, happendAt1]; exact happendPath_refines _ hs hc hn
  | .int i, h, p, v, F, c, tc, C, hs, hc, hn => by simp only [appendAt1, happendAt1]; exact happendPath_refines _ hs hc hn
  | .uint i, h, p, v, F, c, tc, C, hs, hc, hn => by simp only [appendAt1, happendAt1]; exact happendPath_refines _ hs hc hn
  | .str i, h, p, v, F, c, tc, C, hs, hc, hn => by simp only [appendAt1, happendAt1]; exact happendPath_refines _ hs hc hn
  | .other, h, p, v, F, c, tc, C, hs, hc, hn => by simp only [appendAt1, happendAt1]; exact happendPath_refines _ hs hc hn
termination_by structural q => q
theorem happendAt_refines {E : Env} {beg : Bool} : ∀ (ps : List Param) {h : Heap} {p v F c tc C}, Hangs h p v F → Hangs h c tc C → (F ++ C).Nodup →
    SetAgrees h F C p c (appendAt E beg v tc ps) (happendAt E beg h p c ps)
  | [], h, p, v, F, c, tc, C, hs, hc, hn => happend_nil hs hc hn
  | q :: qs, h, p, v, F, c, tc, C, hs, hc, hn => happend_cons hs hc hn (happendAt1_refines q hs hc hn)
termination_by structural ps => ps
end

/-! ## Delete -/

/-- the results of deletions: no pointer comes back -/
def DelAgrees (h : Heap) (F : List Nat) (p : Ptr) (t : V × R Unit) (r : Heap × R Ptr) : Prop :=
  Upd h F [] r.1 p t.1 ∧ r.2 = match t.2 with
    | .ok _ => .ok none
    | .err e => .err e
    | .panic => .panic
    | .diverge => .diverge

theorem hdeleteLast_refines {E : Env} {cl : Bool} {h : Heap} {p v F} (q : Param) (hs : Hangs h p v F) (hn : F.Nodup) :
    DelAgrees h F p (deleteLast E cl v q) (hdeleteLast E cl h p q) := by
  cases hs with
  | nil => exact ⟨upd_refl .nil hn, rfl⟩
  | node a c v G ha hsh hl =>
    have hs := Hangs.node a c v G ha hsh hl
    have hr := upd_refl (C := []) hs hn
    cases c <;> cases v <;> try exact hsh.elim
    all_goals try (simp only [hdeleteLast, ha, deleteLast]; exact ⟨hr, rfl⟩)
    · rename_i ps xs
      simp only [kids, treeKids] at hl
      have hlen := showsL_length hl
      simp only [hdeleteLast, ha, deleteLast]
      cases hz : anyToInt q with
      | err e => exact ⟨hr, rfl⟩
      | panic => exact ⟨hr, rfl⟩
      | diverge => exact ⟨hr, rfl⟩
      | ok pos =>
        simp only [hlen]
        by_cases hneg : posForRead xs.length pos < 0
        · simp only [hneg, if_true]; exact ⟨hr, rfl⟩
        · simp only [hneg, if_false]
          have hlt : (posForRead xs.length pos).toNat < xs.length := by
            rw [posForRead_eq] at hneg ⊢
            cases hi : index xs.length pos with
            | none => rw [hi] at hneg; simp at hneg
            | some i => simpa using index_lt hi
          rw [deleteInArr_eq _ _ hlt, deleteInArr_eq _ _ (by omega)]
          exact ⟨upd_write_arr ha hl hn (by simp) (edit_erase _ hlt hl (List.nodup_cons.1 hn).2), rfl⟩
    · rename_i n kvs low n' es low'
      obtain ⟨rfl, rfl, hk⟩ := hsh
      simp only [kids, treeKids] at hl
      simp only [hdeleteLast, ha, deleteLast]
      cases hz : anyToString q with
      | err e => exact ⟨hr, rfl⟩
      | panic => exact ⟨hr, rfl⟩
      | diverge => exact ⟨hr, rfl⟩
      | ok key =>
        simp only [findKey_keysOf E cl (es := es) hk, delKey]
        cases hf : findKey E cl es low key with
        | mk low' o =>
          cases o with
          | none => exact ⟨upd_write_obj ha hk hl hn (by simp) hk (edit_same hl (List.nodup_cons.1 hn).2), rfl⟩
          | some k =>
            exact ⟨upd_write_obj ha hk hl hn (by simp) (sameKeys_erase hk) (edit_delete k hk hl (List.nodup_cons.1 hn).2), rfl⟩

theorem hdelete_last_step {E : Env} {cl : Bool} {q : Param} {pre : List Param} {h : Heap} {p v F} (hs : Hangs h p v F) (hn : F.Nodup)
    (ih : ∀ {h : Heap} {p v F}, Hangs h p v F → F.Nodup → DelAgrees h F p (deleteAt1 E cl v q) (hdeleteAt1 E cl h p q)) :
    DelAgrees h F p (deleteAt E cl v pre [q]) (hdeleteAt E cl h p pre [q]) := by
  unfold deleteAt hdeleteAt
  simp only [List.isEmpty_nil, Bool.not_true, Bool.false_eq_true, if_false]
  cases pre with
  | nil => exact ih hs hn
  | cons first pre =>
    simp only
    by_cases hf : first.isSlice = true
    · rw [if_pos hf, if_pos hf]; exact ⟨upd_refl hs hn, rfl⟩
    · rw [if_neg hf, if_neg hf]
      obtain ⟨hu, hag⟩ := hget_refines (E := E) (cl := cl) (first :: pre) hs hn
      cases hr : hget E cl h p (first :: pre) with
      | mk h1 r =>
        cases ht : resolve E cl v (first :: pre) with
        | mk v1 t =>
          rw [hr, ht] at hu hag
          simp only at hu hag
          cases t with
          | err e => simp only [Agrees] at hag; subst hag; exact ⟨hu, rfl⟩
          | panic => simp only [Agrees] at hag; subst hag; exact ⟨hu, rfl⟩
          | diverge => simp only [Agrees] at hag; subst hag; exact ⟨hu, rfl⟩
          | ok l =>
            obtain ⟨x, rfl, hl⟩ := hag
            obtain ⟨F', hs', hn', -⟩ := hu.shows
            obtain ⟨w, hw⟩ := leads_at hs' hl
            obtain ⟨G, hG, hGn, hGF, hres, hk⟩ := modify_upd (f := fun a => deleteAt1 E cl a q) hs' hn' (C := []) (by simp) hw hl
            have hi := ih hG hGn
            simp only [hthen]
            refine ⟨upd_trans hu fun F'' hs'' _ _ => ?_, ?_⟩
            · obtain ⟨-, rfl⟩ := shows_det hs' hs''
              exact (hk _ hi.1).1
            · rw [hres]; exact hi.2

mutual
theorem hdeleteAt1_refines {E : Env} {cl : Bool} : ∀ (q : Param) {h : Heap} {p v F}, Hangs h p v F → F.Nodup →
    DelAgrees h F p (deleteAt1 E cl v q) (hdeleteAt1 E cl h p q)
  | .slice [], h, p, v, F, hs, hn => by simp only [deleteAt1, hdeleteAt1, List.isEmpty_nil, if_true]; exact hdeleteLast_refines .nil hs hn
  | .slice (q :: qs), h, p, v, F, hs, hn => by
    simp only [deleteAt1, hdeleteAt1, List.isEmpty_cons, Bool.false_eq_true, if_false]; exact hdeleteAt_refines (q :: qs) [] hs hn
  | .nil, h, p, v, F, hs, hn => by simp only [deleteAt1, hdeleteAt1]; exact hdeleteLast_refines .nil hs hn
  | .int i, h, p, v, F, hs, hn => by simp only [deleteAt1, hdeleteAt1]; exact hdeleteLast_refines (.int i) hs hn
  | .uint i, h, p, v, F, hs, hn => by simp only [deleteAt1, hdeleteAt1]; exact hdeleteLast_refines (.uint i) hs hn
  | .str i, h, p, v, F, hs, hn => by simp only [deleteAt1, hdeleteAt1]; exact hdeleteLast_refines (.str i) hs hn
  | .other, h, p, v, F, hs, hn => by simp only [deleteAt1, hdeleteAt1]; exact hdeleteLast_refines .other hs hn
termination_by structural q => q
theorem hdeleteAt_refines {E : Env} {cl : Bool} : ∀ (ps pre : List Param) {h : Heap} {p v F}, Hangs h p v F → F.Nodup →
    DelAgrees h F p (deleteAt E cl v pre ps) (hdeleteAt E cl h p pre ps)
  | [], pre, h, p, v, F, hs, hn => ⟨upd_refl hs hn, rfl⟩
  | [q], pre, h, p, v, F, hs, hn => hdelete_last_step hs hn fun hs hn => hdeleteAt1_refines q hs hn
  | q :: q' :: qs, pre, h, p, v, F, hs, hn => by
    unfold deleteAt hdeleteAt
    simp only [List.isEmpty_cons, Bool.not_false, if_true]
    exact hdeleteAt_refines (q' :: qs) (pre ++ [q]) hs hn
termination_by structural ps => ps
end

end JV
