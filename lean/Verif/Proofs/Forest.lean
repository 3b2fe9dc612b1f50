import Verif.Spec.Forest
import Verif.Proofs.HeapCopy
import Verif.Proofs.Sort
/-!
Programs that store every `*V` in at most one place are described by the tree model.
-/
namespace JV
open Spec

theorem forest_cons {h : Heap} {p v roots} : Forest h ((p, v) :: roots) ↔ ∃ F G, Hangs h p v F ∧ HangsL h (roots.map Prod.fst) (roots.map Prod.snd) G ∧ (F ++ G).Nodup := by
  constructor
  · rintro ⟨F, h1, h2⟩
    obtain ⟨F1, F2, rfl, h3, h4⟩ := showsL_cons_inv h1
    exact ⟨F1, F2, h3, h4, h2⟩
  · rintro ⟨F, G, h1, h2, h3⟩
    exact ⟨F ++ G, .cons _ _ _ _ _ _ h1 h2, h3⟩

theorem hangsL_perm {h : Heap} {r r' : List (Ptr × V)} (hp : r.Perm r') : ∀ {F}, HangsL h (r.map Prod.fst) (r.map Prod.snd) F →
    ∃ F', HangsL h (r'.map Prod.fst) (r'.map Prod.snd) F' ∧ F.Perm F' := by
  induction hp with
  | nil => intro F hF; exact ⟨F, hF, .refl _⟩
  | cons x _ ih =>
    intro F hF
    obtain ⟨F1, F2, rfl, h1, h2⟩ := showsL_cons_inv hF
    obtain ⟨F', h3, h4⟩ := ih h2
    exact ⟨F1 ++ F', .cons _ _ _ _ _ _ h1 h3, h4.append_left F1⟩
  | swap x y l =>
    intro F hF
    obtain ⟨F1, F2, rfl, h1, h2⟩ := showsL_cons_inv hF
    obtain ⟨F3, F4, rfl, h3, h4⟩ := showsL_cons_inv h2
    refine ⟨F3 ++ (F1 ++ F4), .cons _ _ _ _ _ _ h3 (.cons _ _ _ _ _ _ h1 h4), ?_⟩
    rw [← List.append_assoc, ← List.append_assoc]
    exact List.perm_append_comm.append_right F4
  | trans _ _ ih1 ih2 =>
    intro F hF
    obtain ⟨F', h1, h2⟩ := ih1 hF
    obtain ⟨F'', h3, h4⟩ := ih2 h1
    exact ⟨F'', h3, h2.trans h4⟩

theorem forest_perm {h : Heap} {r r' : List (Ptr × V)} (hf : Forest h r) (hp : r.Perm r') : Forest h r' := by
  obtain ⟨F, h1, h2⟩ := hf
  obtain ⟨F', h3, h4⟩ := hangsL_perm hp h1
  exact ⟨F', h3, h4.nodup_iff.1 h2⟩

theorem forest_upd {h h' : Heap} {p v' F C G roots} (hu : Upd h F C h' p v') (hG : HangsL h (roots.map Prod.fst) (roots.map Prod.snd) G) (hn : G.Nodup)
    (hd : ∀ x ∈ G, x ∉ F ∧ x ∉ C) : Forest h' ((p, v') :: roots) := by
  obtain ⟨F', h1, h2, h3⟩ := hu.shows
  have hlt := showsL_lt hG
  refine forest_cons.2 ⟨F', G, h1, showsL_frame hG fun a ha => hu.frame a (hlt a ha) (hd a ha).1 (hd a ha).2, ?_⟩
  refine List.nodup_append.2 ⟨h2, hn, ?_⟩
  intro a ha b hb hab
  subst hab
  rcases h3 a ha with h | h | h
  · exact (hd a hb).1 h
  · exact (hd a hb).2 h
  · have := hlt a hb; omega

theorem put_agrees {E : Env} (k : Put) (ps : List Param) {h : Heap} {p v F c tc C} (hs : Hangs h p v F) (hc : Hangs h c tc C) (hn : (F ++ C).Nodup) :
    SetAgrees h F C p c (k.onTree E v tc ps) (k.onHeap E h p c ps) := by
  cases k with
  | set => exact hsetAt_refines ps hs hc hn
  | insert after => exact hinsertAt_refines ps [] hs hc hn
  | append beg => exact happendAt_refines ps hs hc hn

mutual
theorem hangs_closed {h : Heap} : ∀ {p v F}, Hangs h p v F → SelfContained h (· ∈ F) ∧ In (· ∈ F) p
  | _, _, _, .nil => ⟨fun _ ha => absurd ha (by simp), in_none _⟩
  | _, _, _, .node a c v F ha _ hk => by
    obtain ⟨h1, h2⟩ := hangsL_closed hk
    refine ⟨fun b hb => ?_, in_some (by simp)⟩
    rcases List.mem_cons.1 hb with rfl | hb
    · exact ⟨c, ha, fun x hx => List.mem_cons_of_mem _ (h2 _ hx x rfl)⟩
    · obtain ⟨d, hd, hk⟩ := h1 b hb
      exact ⟨d, hd, fun x hx => List.mem_cons_of_mem _ (hk x hx)⟩
theorem hangsL_closed {h : Heap} : ∀ {ps vs F}, HangsL h ps vs F → SelfContained h (· ∈ F) ∧ ∀ p ∈ ps, In (· ∈ F) p
  | _, _, _, .nil => ⟨fun _ ha => absurd ha (by simp), by simp⟩
  | _, _, _, .cons p v F ps vs G hp hps => by
    obtain ⟨h1, h2⟩ := hangs_closed hp
    obtain ⟨h3, h4⟩ := hangsL_closed hps
    refine ⟨fun b hb => ?_, fun q hq => ?_⟩
    · rcases List.mem_append.1 hb with hb | hb
      · obtain ⟨d, hd, hk⟩ := h1 b hb
        exact ⟨d, hd, fun x hx => List.mem_append_left _ (hk x hx)⟩
      · obtain ⟨d, hd, hk⟩ := h3 b hb
        exact ⟨d, hd, fun x hx => List.mem_append_right _ (hk x hx)⟩
    · rcases List.mem_cons.1 hq with rfl | hq
      · exact in_mono h2 fun a ha => List.mem_append_left _ ha
      · exact in_mono (h4 q hq) fun a ha => List.mem_append_right _ ha
end

theorem put_stores {E : Env} (k : Put) (ps : List Param) {h : Heap} {S : Nat → Prop} (hS : SelfContained h S) {v c : Ptr} (hv : In S v) : Stores h v c (k.onHeap E h v c ps) := by
  cases k with
  | set => exact hsetAt_stores ps
  | insert after => exact hinsertAt_stores ps []
  | append beg => exact happendAt_stores ps hS hv

/-- storing a root below another one -/
theorem forest_put {E : Env} {h : Heap} {p v c tc roots l q w} {k : Put} {ps : List Param} (hf : Forest h ((p, v) :: (c, tc) :: roots)) (hl : Leads h p l q) (hw : v.at l = some w) :
    match (k.onTree E w tc ps).2 with
    | .ok m => (k.onHeap E h q c ps).2 = .ok c ∧ Leads (k.onHeap E h q c ps).1 p (l ++ m) c ∧ Leads (k.onHeap E h q c ps).1 p l q ∧
        Forest (k.onHeap E h q c ps).1 ((p, (v.modify (fun w => k.onTree E w tc ps) l).1) :: roots)
    | .err e => (k.onHeap E h q c ps).2 = .err e ∧ Forest (k.onHeap E h q c ps).1 ((p, v) :: (c, tc) :: roots) ∧ Leads (k.onHeap E h q c ps).1 p l q
    | .panic => (k.onHeap E h q c ps).2 = .panic ∧ Forest (k.onHeap E h q c ps).1 ((p, v) :: (c, tc) :: roots) ∧ Leads (k.onHeap E h q c ps).1 p l q
    | .diverge => (k.onHeap E h q c ps).2 = .diverge ∧ Forest (k.onHeap E h q c ps).1 ((p, v) :: (c, tc) :: roots) ∧ Leads (k.onHeap E h q c ps).1 p l q := by
  obtain ⟨F, G, h1, h2, h3⟩ := forest_cons.1 hf
  obtain ⟨C, D, rfl, h4, h5⟩ := showsL_cons_inv h2
  obtain ⟨K, hK, hKn, hKF, hres, hmod⟩ := modify_upd (f := fun w => k.onTree E w tc ps) h1 (by grind) (C := C) (by grind) hw hl
  have hag := put_agrees (E := E) k ps hK h4 (by grind)
  obtain ⟨hu, hl'⟩ := hmod _ hag.1
  have hr := hag.2
  have hfail : (∀ x, (k.onHeap E h q c ps).2 ≠ .ok x) → Forest (k.onHeap E h q c ps).1 ((p, v) :: (c, tc) :: roots) := by
    intro hne
    rcases put_stores (E := E) k ps (hangs_closed hK).1 (hangs_closed hK).2 (c := c) with ⟨h6, -⟩ | ⟨h6, -⟩
    · obtain ⟨X, hX, hXn⟩ := hf
      have hlt := showsL_lt hX
      exact ⟨X, showsL_frame hX fun a ha => h6 a (hlt a ha), hXn⟩
    · exact absurd h6 (hne c)
  simp only [AgreesAt] at hr
  cases ht : (k.onTree E w tc ps).2 with
  | ok m =>
    rw [ht] at hr
    exact ⟨hr.1, leads_append hl' hr.2, hl', forest_upd hu h5 (by grind) (by grind)⟩
  | err e => rw [ht] at hr; exact ⟨hr, hfail (by simp [hr]), hl'⟩
  | panic => rw [ht] at hr; exact ⟨hr, hfail (by simp [hr]), hl'⟩
  | diverge => rw [ht] at hr; exact ⟨hr, hfail (by simp [hr]), hl'⟩

theorem forest_get {E : Env} {cl : Bool} {h : Heap} {p v roots l q w} {ps : List Param} (hf : Forest h ((p, v) :: roots)) (hl : Leads h p l q) (hw : v.at l = some w) :
    Forest (hget E cl h q ps).1 ((p, (v.modify (fun w => resolve E cl w ps) l).1) :: roots) ∧ Leads (hget E cl h q ps).1 p l q ∧
    Agrees (hget E cl h q ps).1 q (resolve E cl w ps).2 (hget E cl h q ps).2 := by
  obtain ⟨F, G, h1, h2, h3⟩ := forest_cons.1 hf
  obtain ⟨K, hK, hKn, hKF, hres, hmod⟩ := modify_upd (f := fun w => resolve E cl w ps) h1 (by grind) (C := []) (by simp) hw hl
  have hag := hget_refines (E := E) (cl := cl) ps hK hKn
  obtain ⟨hu, hl'⟩ := hmod _ hag.1
  exact ⟨forest_upd hu h2 (by grind) (by grind), hl', hag.2⟩

theorem forest_delete {E : Env} {cl : Bool} {h : Heap} {p v roots l q w} {ps : List Param} (hf : Forest h ((p, v) :: roots)) (hl : Leads h p l q) (hw : v.at l = some w) :
    Forest (hdeleteAt E cl h q [] ps).1 ((p, (v.modify (fun w => deleteAt E cl w [] ps) l).1) :: roots) ∧ Leads (hdeleteAt E cl h q [] ps).1 p l q ∧
    (hdeleteAt E cl h q [] ps).2 = match (deleteAt E cl w [] ps).2 with
      | .ok _ => .ok none
      | .err e => .err e
      | .panic => .panic
      | .diverge => .diverge := by
  obtain ⟨F, G, h1, h2, h3⟩ := forest_cons.1 hf
  obtain ⟨K, hK, hKn, hKF, hres, hmod⟩ := modify_upd (f := fun w => deleteAt E cl w [] ps) h1 (by grind) (C := []) (by simp) hw hl
  have hag := hdeleteAt_refines (E := E) (cl := cl) ps [] hK hKn
  obtain ⟨hu, hl'⟩ := hmod _ hag.1
  exact ⟨forest_upd hu h2 (by grind) (by grind), hl', hag.2⟩

theorem forest_fresh {h : Heap} {v roots} {r : Heap × Ptr} (hf : Forest h roots) (hr : Fresh h v r) : Forest r.1 ((r.2, v) :: roots) := by
  obtain ⟨G, h1, h2⟩ := hf
  obtain ⟨ext, F, h3, h4, h5, h6⟩ := hr
  have hlt := showsL_lt h1
  refine forest_cons.2 ⟨F, G, h4, by rw [h3]; exact showsL_prefix h1, List.nodup_append.2 ⟨h5, h2, ?_⟩⟩
  intro a ha b hb hab
  have := h6 a ha
  have := hlt b hb
  omega

/-- more fuel does not change a result -/
theorem hcopyList_mono {f g : Heap → Ptr → Heap × R Ptr} (hfg : ∀ h p, (f h p).2 ≠ .diverge → g h p = f h p) :
    ∀ (ps : List Ptr) (h : Heap), (hcopyList f h ps).2 ≠ .diverge → hcopyList g h ps = hcopyList f h ps := by
  intro ps
  induction ps with
  | nil => intros; rfl
  | cons p ps ih =>
    intro h hd
    simp only [hcopyList] at hd ⊢
    cases hr : f h p with
    | mk h1 t =>
      cases t with
      | ok c =>
        rw [hr] at hd
        simp only at hd
        have hd2 : (hcopyList f h1 ps).2 ≠ .diverge := by
          intro hx
          cases hr2 : hcopyList f h1 ps with
          | mk h2 t2 => rw [hr2] at hx hd; simp only at hx; subst hx; exact hd rfl
        rw [hfg h p (by rw [hr]; simp), hr]
        simp only
        rw [ih h1 hd2]
      | err e => rw [hfg h p (by rw [hr]; simp), hr]
      | panic => rw [hfg h p (by rw [hr]; simp), hr]
      | diverge => rw [hr] at hd; exact absurd rfl hd

theorem hdeepCopy_mono : ∀ (n : Nat) (h : Heap) (p : Ptr), (hdeepCopy n h p).2 ≠ .diverge → hdeepCopy (n + 1) h p = hdeepCopy n h p := by
  intro n
  induction n with
  | zero => intro h p hd; exact absurd rfl hd
  | succ n ih =>
    intro h p hd
    cases p with
    | none => rfl
    | some a =>
      unfold hdeepCopy at hd ⊢
      simp only at hd ⊢
      cases hc : h[a]? with
      | none => rfl
      | some c =>
        rw [hc] at hd
        cases c with
        | arr xs =>
          simp only at hd ⊢
          have : (hcopyList (hdeepCopy n) h xs).2 ≠ .diverge := by
            intro hx
            cases hr2 : hcopyList (hdeepCopy n) h xs with
            | mk h2 t2 => rw [hr2] at hx hd; simp only at hx; subst hx; exact hd rfl
          rw [hcopyList_mono ih xs h this]
        | obj m kvs low =>
          simp only at hd ⊢
          have : (hcopyList (hdeepCopy n) h (kvs.map HEnt.v)).2 ≠ .diverge := by
            intro hx
            cases hr2 : hcopyList (hdeepCopy n) h (kvs.map HEnt.v) with
            | mk h2 t2 => rw [hr2] at hx hd; simp only at hx; subst hx; exact hd rfl
          rw [hcopyList_mono ih _ h this]
        | _ => rfl

theorem hdeepCopy_le {n m : Nat} {h : Heap} {p : Ptr} (hd : (hdeepCopy n h p).2 ≠ .diverge) (hnm : n ≤ m) : hdeepCopy m h p = hdeepCopy n h p := by
  induction hnm with
  | refl => rfl
  | step _ ih => rw [hdeepCopy_mono _ _ _ (by rw [ih]; exact hd), ih]

/-- a copy that was made is the copy -/
theorem hdeepCopy_is {h : Heap} {p v F c} {n : Nat} (hs : Hangs h p v F) (hr : (hdeepCopy n h p).2 = .ok c) : Fresh h (copied v) ((hdeepCopy n h p).1, c) := by
  obtain ⟨q, h1, h2⟩ := hdeepCopy_fresh (max n (F.length + 1)) hs (by omega)
  have hm := hdeepCopy_le (m := max n (F.length + 1)) (by rw [hr]; simp) (by omega)
  rw [hm] at h1 h2
  rw [hr] at h1
  cases h1
  exact h2

/-! SortArray -/

theorem showsL_zip {h : Heap} : ∀ {ps vs F}, HangsL h ps vs F → HangsL h ((ps.zip vs).map Prod.fst) ((ps.zip vs).map Prod.snd) F
  | _, _, _, .nil => .nil
  | _, _, _, .cons p v F ps vs G hp hps => .cons p v F _ _ G hp (showsL_zip hps)

theorem zip_snd {α β : Type} : ∀ {xs : List α} {ys : List β}, xs.length = ys.length → (xs.zip ys).map Prod.snd = ys
  | [], [], _ => rfl
  | x :: xs, y :: ys, h => by simp only [List.zip_cons_cons, List.map_cons]; rw [zip_snd (by simpa using h)]

/-- the pointers sorted by the trees below them, and the trees sorted -/
theorem showsL_sort {S : SortFn} (hS : GoodSort S) (f : V → V → Bool) {h : Heap} {ps vs F} (hs : HangsL h ps vs F) :
    ∃ G, HangsL h ((sortBy S (fun x y => f x.2 y.2) (ps.zip vs)).map Prod.fst) (sortBy S f vs) G ∧ F.Perm G := by
  obtain ⟨G, h1, h2⟩ := hangsL_perm (sortBy_perm hS (fun x y : Ptr × V => f x.2 y.2) (ps.zip vs)).symm (showsL_zip hs)
  refine ⟨G, ?_, h2⟩
  rw [← sortBy_map S Prod.snd f, zip_snd (showsL_length hs)] at h1
  exact h1

/-- `SortArray` with enough fuel for the less function, next to `SortArray` on the tree -/
theorem hsortArray_refines {S : SortFn} (hS : GoodSort S) (less : Option (V → V → Bool)) {n : Nat} {h : Heap} {p v F} (hs : Hangs h p v F) (hn : F.Nodup)
    (hd : (hsortArray S n h p less).2 ≠ .diverge) :
    Upd h F [] (hsortArray S n h p less).1 p (sortTree S less v).1 ∧
    (hsortArray S n h p less).2 = match (sortTree S less v).2 with
      | .ok _ => .ok none
      | .err e => .err e
      | .panic => .panic
      | .diverge => .diverge := by
  cases less with
  | none => exact ⟨upd_refl hs hn, rfl⟩
  | some f =>
    cases p with
    | none =>
      obtain ⟨rfl, rfl⟩ := shows_none hs
      exact ⟨upd_refl hs hn, rfl⟩
    | some a =>
      obtain ⟨c, G, rfl, hc, hsh, hk⟩ := shows_some hs
      simp only [hsortArray, hc] at hd ⊢
      cases c with
      | arr xs =>
        cases v with
        | arr vs =>
          simp only at hd ⊢
          have hok := hreadList_closed (fun p hp => hread_closed (hangs_closed hs).1 n p hp) (ps := xs)
            fun b hb => List.mem_cons_of_mem _ ((hangsL_closed hk).2 _ hb b rfl)
          cases hr : hreadList (hread n h) xs with
          | ok ws =>
            obtain ⟨F', hw⟩ := showsL_of_read (fun p v hp => shows_of_read n hp) hr
            obtain ⟨rfl, rfl⟩ := showsL_det hk hw
            obtain ⟨G', h1, h2⟩ := showsL_sort hS f hk
            have hlt := shows_lt hs
            refine ⟨⟨by simp, fun b hb hbF _ => ?_, a :: G', ?_, ?_, ?_⟩, rfl⟩
            · exact List.getElem?_set_ne (by grind)
            · refine shows_mk_arr (by rw [List.getElem?_set_self (hlt a (by simp))]; rfl) (showsL_frame h1 fun b hb => List.getElem?_set_ne ?_)
              intro hab
              subst hab
              exact (List.nodup_cons.1 hn).1 (h2.mem_iff.2 hb)
            · exact List.nodup_cons.2 ⟨fun hx => (List.nodup_cons.1 hn).1 (h2.mem_iff.2 hx), h2.nodup_iff.1 (List.nodup_cons.1 hn).2⟩
            · intro b hb
              rcases List.mem_cons.1 hb with rfl | hb
              · exact .inl (by simp)
              · exact .inl (List.mem_cons_of_mem _ (h2.mem_iff.2 hb))
          | err e =>
            rcases hok with ⟨_, hx⟩ | hx <;> (rw [hr] at hx; cases hx)
          | panic =>
            rcases hok with ⟨_, hx⟩ | hx <;> (rw [hr] at hx; cases hx)
          | diverge => rw [hr] at hd; exact absurd rfl hd
        | _ => exact hsh.elim
      | _ =>
        cases v with
        | arr vs => exact hsh.elim
        | nilp => exact hsh.elim
        | _ => exact ⟨upd_refl hs hn, rfl⟩

/-- with fuel for the whole value it does come back -/
theorem hsortArray_returns {S : SortFn} (less : Option (V → V → Bool)) {n : Nat} {h : Heap} {p v F} (hs : Hangs h p v F) (hn : F.length < n) :
    (hsortArray S n h p less).2 ≠ .diverge := by
  cases less with
  | none => simp [hsortArray]
  | some f =>
    cases p with
    | none => simp [hsortArray]
    | some a =>
      obtain ⟨c, G, rfl, hc, hsh, hk⟩ := shows_some hs
      simp only [List.length_cons] at hn
      simp only [hsortArray, hc]
      cases c with
      | arr xs =>
        have := hreadList_ok (fun p v F hp hlt => hread_ok n hp hlt) hk (by omega)
        simp only [kids] at this
        simp only [this]
        simp
      | _ => simp

/-- it only moves pointers: what `HOp.sort` says about SortArray -/
theorem hsortArray_reorder {S : SortFn} (hS : GoodSort S) {f : V → V → Bool} {n : Nat} {h : Heap} {p r : Ptr} (hd : (hsortArray S n h p (some f)).2 = .ok r) :
    ∃ ys, hsortArray S n h p (some f) = hreorder h p ys := by
  cases p with
  | none => exact ⟨[], rfl⟩
  | some a =>
    simp only [hsortArray, hreorder] at hd ⊢
    cases hc : h[a]? with
    | none => exact ⟨[], rfl⟩
    | some c =>
      rw [hc] at hd
      cases c with
      | arr xs =>
        simp only at hd ⊢
        cases hr : hreadList (hread n h) xs with
        | ok vs =>
          refine ⟨(sortBy S (fun x y => f x.2 y.2) (xs.zip vs)).map Prod.fst, ?_⟩
          have hlen : xs.length = vs.length := by
            obtain ⟨F, hF⟩ := showsL_of_read (fun p v hp => shows_of_read n hp) hr
            exact showsL_length hF
          have hp := (sortBy_perm hS (fun x y : Ptr × V => f x.2 y.2) (xs.zip vs)).map Prod.fst
          have hz : (xs.zip vs).map Prod.fst = xs := by simp [List.map_fst_zip, hlen]
          rw [hz] at hp
          rw [if_pos (List.isPerm_iff.2 hp.symm)]
        | err e => rw [hr] at hd; cases hd
        | panic => rw [hr] at hd; cases hd
        | diverge => rw [hr] at hd; cases hd
      | _ => exact ⟨[], rfl⟩

theorem forest_sort {S : SortFn} (hS : GoodSort S) {less : Option (V → V → Bool)} {n : Nat} {h : Heap} {p v roots l q w} (hf : Forest h ((p, v) :: roots)) (hl : Leads h p l q)
    (hw : v.at l = some w) (hd : (hsortArray S n h q less).2 ≠ .diverge) :
    Forest (hsortArray S n h q less).1 ((p, (v.modify (fun w => sortTree S less w) l).1) :: roots) ∧ Leads (hsortArray S n h q less).1 p l q ∧
    (hsortArray S n h q less).2 = match (sortTree S less w).2 with
      | .ok _ => .ok none
      | .err e => .err e
      | .panic => .panic
      | .diverge => .diverge := by
  obtain ⟨F, G, h1, h2, h3⟩ := forest_cons.1 hf
  obtain ⟨K, hK, hKn, hKF, hres, hmod⟩ := modify_upd (f := fun w => sortTree S less w) h1 (by grind) (C := []) (by simp) hw hl
  have hag := hsortArray_refines hS less hK hKn hd
  obtain ⟨hu, hl'⟩ := hmod _ hag.1
  exact ⟨forest_upd hu h2 (by grind) (by grind), hl', hag.2⟩

/-! UnmarshalJSON -/

/-- the object afterwards: the new tree, all of it new but the object itself -/
theorem hoverwrite_is {h : Heap} {a : Nat} (hal : a < h.length) {t : V} (ht : t ≠ .nilp) : (hoverwrite h (some a) t).2 = .ok none ∧ h.length ≤ (hoverwrite h (some a) t).1.length ∧
    (∀ b, b < h.length → b ≠ a → (hoverwrite h (some a) t).1[b]? = h[b]?) ∧
    ∃ K, Hangs (hoverwrite h (some a) t).1 (some a) t (a :: K) ∧ (a :: K).Nodup ∧ ∀ x ∈ K, h.length ≤ x := by
  obtain ⟨ext, G, h1, h2, h3, h4⟩ := hbuild_fresh t h
  unfold hoverwrite
  generalize hbuild h t = r at h1 h2
  obtain ⟨h', p⟩ := r
  simp only at h1 h2 ⊢
  cases p with
  | none => exact absurd (shows_none h2).1 ht
  | some n =>
    obtain ⟨c, K, rfl, hc, hsh, hk⟩ := shows_some h2
    simp only [hc]
    obtain ⟨h5, h6⟩ := List.nodup_cons.1 h3
    have hal' : a < h'.length := by rw [h1]; simp; omega
    have hnot : a ∉ K := fun hm => by have := h4 a (by simp [hm]); omega
    refine ⟨trivial, by rw [List.length_set, h1]; simp, fun b hb hba => ?_, K, ?_, ?_, ?_⟩
    · rw [List.getElem?_set_ne (Ne.symm hba), h1, List.getElem?_append_left hb]
    · refine .node a c t K (by rw [List.getElem?_set_self hal']) hsh (showsL_frame hk fun b hb => List.getElem?_set_ne ?_)
      rintro rfl
      exact hnot hb
    · exact List.nodup_cons.2 ⟨hnot, h6⟩
    · exact fun b hb => h4 b (by simp [hb])

theorem hoverwrite_upd {h : Heap} {a : Nat} {v F} (hs : Hangs h (some a) v F) {t : V} (ht : t ≠ .nilp) :
    Upd h F [] (hoverwrite h (some a) t).1 (some a) t ∧ (hoverwrite h (some a) t).2 = .ok none := by
  have ha := shows_lt hs
  obtain ⟨c0, G0, rfl, -⟩ := shows_some hs
  obtain ⟨h1, h2, h3, K, h4, h5, h6⟩ := hoverwrite_is (ha a (by simp)) ht
  refine ⟨⟨h2, fun b hb hbF _ => h3 b hb (by grind), a :: K, h4, h5, ?_⟩, h1⟩
  intro b hb
  rcases List.mem_cons.1 hb with rfl | hb
  · exact .inl (by simp)
  · exact .inr (.inr (h6 b hb))

theorem hload_refines {E : Env} {h : Heap} {p v F} (hs : Hangs h p v F) (hn : F.Nodup) (b : Bytes) :
    Upd h F [] (hload E h p b).1 p (loadTree E b v).1 ∧
    (hload E h p b).2 = match (loadTree E b v).2 with
      | .ok _ => .ok none
      | .err e => .err e
      | .panic => .panic
      | .diverge => .diverge := by
  unfold hload loadTree unmarshalJSON
  rcases goUnmarshal_cases E b with ⟨t, h1, h2⟩ | ⟨e, h1, h2⟩
  · have ht := (unmarshal_exists h1).1
    simp only [h2, R.bind_ok]
    cases p with
    | none =>
      obtain ⟨rfl, rfl⟩ := shows_none hs
      obtain ⟨ext, G, h3, -⟩ := hbuild_fresh t h
      have e : hoverwrite h none t = ((hbuild h t).1, .panic) := rfl
      rw [e]
      refine ⟨⟨by simp [h3], fun b hb _ _ => by simp only [h3]; exact List.getElem?_append_left hb, [], .nil, by simp, by simp⟩, rfl⟩
    | some a =>
      obtain ⟨h5, h6⟩ := hoverwrite_upd hs ht
      have hv : v ≠ .nilp := by rintro rfl; cases (shows_nilp hs).1
      cases v <;> cases t <;> first | exact absurd rfl ht | exact absurd rfl hv | exact ⟨h5, h6⟩
  · simp only [h2, R.bind_ok]
    exact ⟨upd_refl hs hn, rfl⟩

theorem forest_load {E : Env} {h : Heap} {p v roots l q w} (hf : Forest h ((p, v) :: roots)) (hl : Leads h p l q) (hw : v.at l = some w) (b : Bytes) :
    Forest (hload E h q b).1 ((p, (v.modify (fun w => loadTree E b w) l).1) :: roots) ∧ Leads (hload E h q b).1 p l q ∧
    (hload E h q b).2 = match (loadTree E b w).2 with
      | .ok _ => .ok none
      | .err e => .err e
      | .panic => .panic
      | .diverge => .diverge := by
  obtain ⟨F, G, h1, h2, h3⟩ := forest_cons.1 hf
  obtain ⟨K, hK, hKn, hKF, hres, hmod⟩ := modify_upd (f := fun w => loadTree E b w) h1 (by grind) (C := []) (by simp) hw hl
  have hag := hload_refines (E := E) hK hKn b
  obtain ⟨hu, hl'⟩ := hmod _ hag.1
  exact ⟨forest_upd hu h2 (by grind) (by grind), hl', hag.2⟩

theorem tidy_forest {E : Env} {h : Heap} {roots : List (Ptr × V)} (ht : Tidy E h roots) : Forest h roots := by
  induction ht with
  | start => exact ⟨[], .nil, by simp⟩
  | perm h r r' _ hp ih => exact forest_perm ih hp
  | drop h r roots _ ih =>
    obtain ⟨F, G, -, h2, h3⟩ := (forest_cons (p := r.1) (v := r.2)).1 ih
    exact ⟨G, h2, by grind⟩
  | new h roots v _ ih => exact forest_fresh ih (hbuild_fresh v h)
  | get h p v roots l q w cl ps _ hl hw ih => exact (forest_get ih hl hw).1
  | put h p v c tc roots l q w k ps m _ hl hw hm ih =>
    have := forest_put (E := E) (k := k) (ps := ps) ih hl hw
    rw [hm] at this
    exact this.2.2.2
  | putFails h p v c tc roots l q w k ps _ hl hw hm ih =>
    have := forest_put (E := E) (k := k) (ps := ps) ih hl hw
    cases ht : (k.onTree E w tc ps).2 with
    | ok m => exact absurd ht (hm m)
    | err e => rw [ht] at this; exact this.2.1
    | panic => rw [ht] at this; exact this.2.1
    | diverge => rw [ht] at this; exact this.2.1
  | delete h p v roots l q w cl ps _ hl hw ih => exact (forest_delete ih hl hw).1
  | copy h p v roots l q w fuel c _ hl hw hc ih =>
    obtain ⟨F, G, h1, h2, h3⟩ := forest_cons.1 ih
    obtain ⟨K, hK, -⟩ := leads_shows h1 hw hl
    exact forest_fresh ih (hdeepCopy_is hK hc)
  | sort h p v roots l q w S fuel less _ hl hw hS hd ih => exact (forest_sort hS ih hl hw hd).1
  | load h p v roots l q w b _ hl hw ih => exact (forest_load ih hl hw b).1

end JV
