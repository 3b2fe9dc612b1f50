import Verif.Proofs.HeapMore
/-!
Reading a whole value, building one, copying one; values without a node below itself are exactly those that show a tree.
-/
namespace JV
open Spec

/-! ## reading -/

theorem entsOf_eq {kvs : List HEnt} {es : List Ent} (hk : SameKeys kvs es) : entsOf kvs (es.map Ent.v) = es := by
  induction kvs generalizing es with
  | nil => cases es with
    | nil => rfl
    | cons e es => simp [SameKeys] at hk
  | cons x kvs ih => cases es with
    | nil => simp [SameKeys] at hk
    | cons e es =>
      simp only [SameKeys, List.map_cons, List.cons.injEq, Prod.mk.injEq] at hk
      simp only [List.map_cons, entsOf, ih hk.2, hk.1.1, hk.1.2, Ent.eta]

theorem hreadList_ok {h : Heap} {f : Ptr → R V} {n : Nat} (hf : ∀ p v F, Hangs h p v F → F.length < n → f p = .ok v) :
    ∀ {ps vs F}, HangsL h ps vs F → F.length < n → hreadList f ps = .ok vs
  | _, _, _, .nil, _ => rfl
  | _, _, _, .cons p v F ps vs G hp hps, hlt => by
    simp only [List.length_append] at hlt
    simp only [hreadList, hf p v F hp (by omega), hreadList_ok hf hps (by omega)]

/-- what hangs below a pointer is what a function walking over it sees -/
theorem hread_ok {h : Heap} : ∀ (n : Nat) {p v F}, Hangs h p v F → F.length < n → hread n h p = .ok v
  | 0, _, _, _, _, hlt => by omega
  | n + 1, _, _, _, .nil, _ => rfl
  | n + 1, _, _, _, .node a c v F ha hs hk, hlt => by
    simp only [List.length_cons] at hlt
    have hl := hreadList_ok (fun p v F hp hlt => hread_ok n hp hlt) hk (by omega)
    cases c <;> cases v <;> (try exact hs.elim) <;> simp only [hread, ha]
    · rw [hs]
    · rw [hs.1, hs.2]
    · rw [hs]
    · simp only [kids, treeKids] at hl
      rw [hl]
    · simp only [kids, treeKids] at hl
      obtain ⟨rfl, rfl, h4⟩ := hs
      rw [hl]
      simp only [entsOf_eq h4]

theorem showsL_of_read {h : Heap} {f : Ptr → R V} (hf : ∀ p v, f p = .ok v → ∃ F, Hangs h p v F) :
    ∀ {ps vs}, hreadList f ps = .ok vs → ∃ F, HangsL h ps vs F := by
  intro ps
  induction ps with
  | nil => intro vs h; cases h; exact ⟨[], .nil⟩
  | cons p ps ih =>
    intro vs hr
    simp only [hreadList] at hr
    cases hp : f p with
    | ok v =>
      rw [hp] at hr
      cases hq : hreadList f ps with
      | ok ws =>
        rw [hq] at hr
        cases hr
        obtain ⟨F, h1⟩ := hf p v hp
        obtain ⟨G, h2⟩ := ih hq
        exact ⟨F ++ G, .cons _ _ _ _ _ _ h1 h2⟩
      | err e => rw [hq] at hr; cases hr
      | panic => rw [hq] at hr; cases hr
      | diverge => rw [hq] at hr; cases hr
    | err e => rw [hp] at hr; cases hr
    | panic => rw [hp] at hr; cases hr
    | diverge => rw [hp] at hr; cases hr

theorem entsOf_same {kvs : List HEnt} {vs : List V} (h : kvs.length = vs.length) : SameKeys kvs (entsOf kvs vs) ∧ (entsOf kvs vs).map Ent.v = vs := by
  induction kvs generalizing vs with
  | nil => cases vs with
    | nil => exact ⟨rfl, rfl⟩
    | cons v vs => simp at h
  | cons x kvs ih => cases vs with
    | nil => simp at h
    | cons v vs =>
      obtain ⟨h1, h2⟩ := ih (by simpa using h)
      simp only [SameKeys] at h1
      simp [SameKeys, entsOf, h1, h2]

theorem shows_of_read {h : Heap} : ∀ (n : Nat) {p v}, hread n h p = .ok v → ∃ F, Hangs h p v F := by
  intro n
  induction n with
  | zero => intro p v h; cases h
  | succ n ih =>
    intro p v hr
    cases p with
    | none => cases hr; exact ⟨[], .nil⟩
    | some a =>
      simp only [hread] at hr
      cases hc : h[a]? with
      | none => rw [hc] at hr; cases hr
      | some c =>
        rw [hc] at hr
        cases c with
        | notExist => cases hr; exact ⟨_, .node a _ _ [] hc trivial .nil⟩
        | str s => cases hr; exact ⟨_, .node a _ _ [] hc rfl .nil⟩
        | num s m => cases hr; exact ⟨_, .node a _ _ [] hc ⟨rfl, rfl⟩ .nil⟩
        | bool b => cases hr; exact ⟨_, .node a _ _ [] hc rfl .nil⟩
        | null => cases hr; exact ⟨_, .node a _ _ [] hc trivial .nil⟩
        | arr xs =>
          simp only at hr
          cases hl : hreadList (hread n h) xs with
          | ok vs =>
            rw [hl] at hr; cases hr
            obtain ⟨F, h1⟩ := showsL_of_read (fun p v => ih) hl
            exact ⟨a :: F, shows_mk_arr hc h1⟩
          | err e => rw [hl] at hr; cases hr
          | panic => rw [hl] at hr; cases hr
          | diverge => rw [hl] at hr; cases hr
        | obj m kvs low =>
          simp only at hr
          cases hl : hreadList (hread n h) (kvs.map HEnt.v) with
          | ok vs =>
            rw [hl] at hr; cases hr
            obtain ⟨F, h1⟩ := showsL_of_read (fun p v => ih) hl
            have hlen := showsL_length h1
            obtain ⟨h2, h3⟩ := entsOf_same (kvs := kvs) (vs := vs) (by simpa using hlen)
            exact ⟨a :: F, shows_mk_obj hc h2 (by rw [h3]; exact h1)⟩
          | err e => rw [hl] at hr; cases hr
          | panic => rw [hl] at hr; cases hr
          | diverge => rw [hl] at hr; cases hr

theorem hreadList_closed {S : Nat → Prop} {f : Ptr → R V} (hf : ∀ p : Ptr, (∀ b, p = some b → S b) → (∃ v, f p = .ok v) ∨ f p = .diverge) :
    ∀ {ps : List Ptr}, (∀ b, some b ∈ ps → S b) → (∃ vs, hreadList f ps = .ok vs) ∨ hreadList f ps = .diverge := by
  intro ps
  induction ps with
  | nil => intro _; exact .inl ⟨[], rfl⟩
  | cons p ps ih =>
    intro hs
    simp only [hreadList]
    rcases hf p (fun b hb => hs b (by rw [hb]; exact List.mem_cons_self ..)) with ⟨v, hv⟩ | hv
    · rw [hv]
      rcases ih (fun b hb => hs b (List.mem_cons_of_mem _ hb)) with ⟨vs, hvs⟩ | hvs
      · exact .inl ⟨v :: vs, by rw [hvs]⟩
      · exact .inr (by rw [hvs])
    · exact .inr (by rw [hv])

/-- nothing but a tree or endless recursion -/
theorem hread_closed {h : Heap} {S : Nat → Prop} (hS : SelfContained h S) : ∀ (n : Nat) (p : Ptr), (∀ b, p = some b → S b) → (∃ v, hread n h p = .ok v) ∨ hread n h p = .diverge := by
  intro n
  induction n with
  | zero => intro p _; exact .inr rfl
  | succ n ih =>
    intro p hp
    cases p with
    | none => exact .inl ⟨_, rfl⟩
    | some a =>
      obtain ⟨c, hc, hk⟩ := hS a (hp a rfl)
      simp only [hread, hc]
      cases c with
      | arr xs =>
        rcases hreadList_closed ih hk with ⟨vs, hvs⟩ | hvs
        · simp only [kids] at hvs; simp only [hvs]; exact .inl ⟨_, rfl⟩
        · simp only [kids] at hvs; simp [hvs]
      | obj m kvs low =>
        rcases hreadList_closed ih hk with ⟨vs, hvs⟩ | hvs
        · simp only [kids] at hvs; simp only [hvs]; exact .inl ⟨_, rfl⟩
        · simp only [kids] at hvs; simp [hvs]
      | notExist => exact .inl ⟨_, rfl⟩
      | str s => exact .inl ⟨_, rfl⟩
      | num s m => exact .inl ⟨_, rfl⟩
      | bool b => exact .inl ⟨_, rfl⟩
      | null => exact .inl ⟨_, rfl⟩

/-! ## cycles -/

theorem shows_kid {h : Heap} {a b : Nat} {c : Cell} {v F} (hs : Hangs h (some a) v F) (ha : h[a]? = some c) (hb : some b ∈ kids c) :
    ∃ w G, Hangs h (some b) w G ∧ G.length < F.length := by
  obtain ⟨c', G0, rfl, h1, -, h3⟩ := shows_some hs
  rw [ha] at h1; cases h1
  have : ∀ {ps vs F} {q : Ptr}, HangsL h ps vs F → q ∈ ps → ∃ w G, Hangs h q w G ∧ G.length ≤ F.length := by
    intro ps vs F q hl hq
    induction ps generalizing vs F with
    | nil => cases hq
    | cons p ps ih =>
      cases hl with
      | cons _ v F _ vs G h1 h2 =>
        rcases List.mem_cons.1 hq with rfl | hq
        · exact ⟨v, F, h1, by simp⟩
        · obtain ⟨w, K, h3, h4⟩ := ih h2 hq
          exact ⟨w, K, h3, by simp; omega⟩
  obtain ⟨w, G, h4, h5⟩ := this h3 hb
  exact ⟨w, G, h4, by simp; omega⟩

theorem shows_reach {h : Heap} {a b : Nat} (hr : Reaches h a b) : ∀ {v F}, Hangs h (some a) v F → ∃ w G, Hangs h (some b) w G ∧ G.length ≤ F.length := by
  induction hr with
  | refl a => intro v F hs; exact ⟨v, F, hs, Nat.le_refl _⟩
  | step a b c cell ha hb _ ih =>
    intro v F hs
    obtain ⟨w, G, h1, h2⟩ := shows_kid hs ha hb
    obtain ⟨x, K, h3, h4⟩ := ih h1
    exact ⟨x, K, h3, by omega⟩

/-- a value with a node below itself shows no tree -/
theorem shows_acyclic {h : Heap} {a : Nat} {v F} (hs : Hangs h (some a) v F) : ¬ ∃ b, Reaches h a b ∧ Spec.BelowItself h b := by
  rintro ⟨b, hr, c, cell, hc, hk, hr2⟩
  obtain ⟨w, G, h1, -⟩ := shows_reach hr hs
  obtain ⟨x, K, h2, h3⟩ := shows_kid h1 hc hk
  obtain ⟨y, L, h4, h5⟩ := shows_reach hr2 h2
  obtain ⟨-, rfl⟩ := shows_det h1 h4
  omega

theorem nodup_bound : ∀ (n : Nat) (l : List Nat), l.Nodup → (∀ x ∈ l, x < n) → l.length ≤ n := by
  intro n
  induction n with
  | zero => intro l _ h; cases l with
    | nil => simp
    | cons x l => exact absurd (h x (List.mem_cons_self ..)) (by omega)
  | succ n ih =>
    intro l hn h
    by_cases hm : n ∈ l
    · have h1 := ih (l.erase n) (hn.erase n) (fun x hx => by
        have := h x (List.mem_of_mem_erase hx)
        have hne : x ≠ n := by intro he; subst he; exact (List.Nodup.mem_erase_iff hn).1 hx |>.1 rfl
        omega)
      rw [List.length_erase_of_mem hm] at h1
      omega
    · have := ih l hn (fun x hx => by
        have := h x hx
        have hne : x ≠ n := by intro he; subst he; exact hm hx
        omega)
      omega

theorem reaches_trans {h : Heap} {a b c : Nat} (h1 : Reaches h a b) (h2 : Reaches h b c) : Reaches h a c := by
  induction h1 with
  | refl => exact h2
  | step a b _ cell ha hb _ ih => exact .step _ _ _ _ ha hb (ih h2)

theorem showsL_exists {h : Heap} : ∀ {ps : List Ptr}, (∀ b, some b ∈ ps → ∃ v F, Hangs h (some b) v F) → ∃ vs F, HangsL h ps vs F
  | [], _ => ⟨[], [], .nil⟩
  | p :: ps, hp => by
    obtain ⟨vs, F, h1⟩ := showsL_exists (h := h) (ps := ps) fun b hb => hp b (List.mem_cons_of_mem _ hb)
    cases p with
    | none => exact ⟨_, _, .cons _ _ _ _ _ _ .nil h1⟩
    | some b =>
      obtain ⟨v, G, h2⟩ := hp b (List.mem_cons_self ..)
      exact ⟨_, _, .cons _ _ _ _ _ _ h2 h1⟩

theorem shows_node_exists {h : Heap} {a : Nat} {c : Cell} (hc : h[a]? = some c) {vs F} (hl : HangsL h (kids c) vs F) : ∃ v, Hangs h (some a) v (a :: F) := by
  cases c with
  | arr xs => exact ⟨_, shows_mk_arr hc hl⟩
  | obj n kvs low =>
    have hlen := showsL_length hl
    obtain ⟨h2, h3⟩ := entsOf_same (kvs := kvs) (vs := vs) (by simpa [kids] using hlen)
    exact ⟨_, shows_mk_obj hc h2 (by rw [h3]; exact hl)⟩
  | notExist => cases hl; exact ⟨_, .node a _ .notExist [] hc trivial .nil⟩
  | str s => cases hl; exact ⟨_, .node a _ (.str s) [] hc rfl .nil⟩
  | num s m => cases hl; exact ⟨_, .node a _ (.num s m) [] hc ⟨rfl, rfl⟩ .nil⟩
  | bool b => cases hl; exact ⟨_, .node a _ (.bool b) [] hc rfl .nil⟩
  | null => cases hl; exact ⟨_, .node a _ .null [] hc trivial .nil⟩

/-- without a node below itself, a closed value shows a tree: walk down, the path cannot repeat a node -/
theorem shows_of_acyclic {h : Heap} {S : Nat → Prop} (hS : SelfContained h S) : ∀ (n : Nat) (path : List Nat) (a : Nat), S a → path.Nodup → (∀ x ∈ path, x < h.length) →
    (∀ x ∈ path, ∃ c cell, h[x]? = some cell ∧ some c ∈ kids cell ∧ Reaches h c a) → (¬ ∃ b, Reaches h a b ∧ Spec.BelowItself h b) → h.length ≤ path.length + n →
    ∃ v F, Hangs h (some a) v F := by
  intro n
  induction n with
  | zero =>
    intro path a ha hn hlt hpath hac hle
    exfalso
    obtain ⟨cell, hcell, -⟩ := hS a ha
    have hal := (List.getElem?_eq_some_iff.1 hcell).1
    have hnot : a ∉ path := by
      intro hm
      obtain ⟨c, cl, h1, h2, h3⟩ := hpath a hm
      exact hac ⟨a, .refl a, c, cl, h1, h2, h3⟩
    have := nodup_bound h.length (a :: path) (List.nodup_cons.2 ⟨hnot, hn⟩) (by
      intro x hx
      rcases List.mem_cons.1 hx with rfl | hx
      · exact hal
      · exact hlt x hx)
    simp at this
    omega
  | succ n ih =>
    intro path a ha hn hlt hpath hac hle
    obtain ⟨cell, hcell, hk⟩ := hS a ha
    have hal := (List.getElem?_eq_some_iff.1 hcell).1
    have hnot : a ∉ path := by
      intro hm
      obtain ⟨c, cl, h1, h2, h3⟩ := hpath a hm
      exact hac ⟨a, .refl a, c, cl, h1, h2, h3⟩
    obtain ⟨vs, F, hl⟩ := showsL_exists (h := h) (ps := kids cell) fun b hb => by
      refine ih (a :: path) b (hk b hb) (List.nodup_cons.2 ⟨hnot, hn⟩) ?_ ?_ ?_ (by simp; omega)
      · intro x hx
        rcases List.mem_cons.1 hx with rfl | hx
        · exact hal
        · exact hlt x hx
      · intro x hx
        rcases List.mem_cons.1 hx with rfl | hx
        · exact ⟨b, cell, hcell, hb, .refl b⟩
        · obtain ⟨c, cl, h1, h2, h3⟩ := hpath x hx
          exact ⟨c, cl, h1, h2, reaches_trans h3 (.step _ _ _ _ hcell hb (.refl b))⟩
      · rintro ⟨b', h1, h2⟩
        exact hac ⟨b', .step _ _ _ _ hcell hb h1, h2⟩
    obtain ⟨v, hv⟩ := shows_node_exists hcell hl
    exact ⟨v, _, hv⟩

/-! ## new values -/

theorem shows_prefix {h ext : Heap} {p v F} (hs : Hangs h p v F) : Hangs (h ++ ext) p v F :=
  shows_frame hs fun a ha => List.getElem?_append_left (shows_lt hs a ha)

theorem showsL_prefix {h ext : Heap} {p v F} (hs : HangsL h p v F) : HangsL (h ++ ext) p v F :=
  showsL_frame hs fun a ha => List.getElem?_append_left (showsL_lt hs a ha)

/-- an operation that only adds objects, and the new value it gives -/
def Fresh (h : Heap) (v : V) (r : Heap × Ptr) : Prop :=
  ∃ ext F, r.1 = h ++ ext ∧ Hangs r.1 r.2 v F ∧ F.Nodup ∧ ∀ a ∈ F, h.length ≤ a

def FreshL (h : Heap) (vs : List V) (r : Heap × List Ptr) : Prop :=
  ∃ ext F, r.1 = h ++ ext ∧ HangsL r.1 r.2 vs F ∧ F.Nodup ∧ ∀ a ∈ F, h.length ≤ a

theorem freshL_nil (h : Heap) : FreshL h [] (h, []) := ⟨[], [], by simp, .nil, by simp, by simp⟩

theorem freshL_cons {h : Heap} {v vs} {r : Heap × Ptr} {s : Heap × List Ptr} (h1 : Fresh h v r) (h2 : FreshL r.1 vs s) : FreshL h (v :: vs) (s.1, r.2 :: s.2) := by
  obtain ⟨e1, F1, h3, h4, h5, h6⟩ := h1
  obtain ⟨e2, F2, h7, h8, h9, h10⟩ := h2
  refine ⟨e1 ++ e2, F1 ++ F2, by simp [h7, h3], .cons _ _ _ _ _ _ (by simp only; rw [h7]; exact shows_prefix h4) h8, ?_, ?_⟩
  · have := shows_lt h4
    refine List.nodup_append.2 ⟨h5, h9, ?_⟩
    intro a ha b hb hab
    have := this a ha
    have := h10 b hb
    omega
  · intro a ha
    rcases List.mem_append.1 ha with ha | ha
    · exact h6 a ha
    · have := h10 a ha
      rw [h3] at this
      simp at this
      omega

/-- a container is put on top of its new children -/
theorem fresh_node {h : Heap} {vs} {s : Heap × List Ptr} {cell : Cell} {v : V} (h1 : FreshL h vs s) (hs : SameShape cell v) (hk : kids cell = s.2) (ht : treeKids v = vs) :
    Fresh h v (s.1 ++ [cell], some s.1.length) := by
  obtain ⟨ext, F, h2, h3, h4, h5⟩ := h1
  have hlt := showsL_lt h3
  refine ⟨ext ++ [cell], s.1.length :: F, by simp [h2], .node _ cell v F (by simp) hs (by rw [hk, ht]; exact showsL_prefix h3), ?_, ?_⟩
  · refine List.nodup_cons.2 ⟨fun hm => ?_, h4⟩
    have := hlt _ hm
    omega
  · intro a ha
    rcases List.mem_cons.1 ha with rfl | ha
    · rw [h2]; simp
    · exact h5 a ha

theorem fresh_leaf (h : Heap) {cell : Cell} {v : V} (hs : SameShape cell v) (hk : kids cell = []) (ht : treeKids v = []) : Fresh h v (h ++ [cell], some h.length) :=
  fresh_node (freshL_nil h) hs hk ht

mutual
theorem hbuild_fresh : ∀ (v : V) (h : Heap), Fresh h v (hbuild h v)
  | .nilp, h => ⟨[], [], by simp [hbuild], by simp only [hbuild]; exact .nil, by simp, by simp⟩
  | .notExist, h => by simp only [hbuild, halloc]; exact fresh_leaf h trivial rfl rfl
  | .str s, h => by simp only [hbuild, halloc]; exact fresh_leaf h rfl rfl rfl
  | .num s n, h => by simp only [hbuild, halloc]; exact fresh_leaf h ⟨rfl, rfl⟩ rfl rfl
  | .bool b, h => by simp only [hbuild, halloc]; exact fresh_leaf h rfl rfl rfl
  | .null, h => by simp only [hbuild, halloc]; exact fresh_leaf h trivial rfl rfl
  | .arr xs, h => by simp only [hbuild, halloc]; exact fresh_node (hbuilds_fresh xs h) trivial rfl rfl
  | .obj n es low, h => by
    simp only [hbuild, halloc]
    obtain ⟨h1, h2⟩ := hbuildEnts_fresh es h
    exact fresh_node (s := ((hbuildEnts h es).1, (hbuildEnts h es).2.map HEnt.v)) h1 ⟨rfl, rfl, h2⟩ rfl rfl
theorem hbuilds_fresh : ∀ (vs : List V) (h : Heap), FreshL h vs (hbuilds h vs)
  | [], h => freshL_nil h
  | v :: vs, h => by simp only [hbuilds]; exact freshL_cons (hbuild_fresh v h) (hbuilds_fresh vs _)
theorem hbuildEnts_fresh : ∀ (es : List Ent) (h : Heap), FreshL h (es.map Ent.v) ((hbuildEnts h es).1, (hbuildEnts h es).2.map HEnt.v) ∧ SameKeys (hbuildEnts h es).2 es
  | [], h => ⟨freshL_nil h, rfl⟩
  | .mk k i v :: es, h => by
    obtain ⟨h1, h2⟩ := hbuildEnts_fresh es (hbuild h v).1
    simp only [hbuildEnts]
    refine ⟨freshL_cons (hbuild_fresh v h) h1, ?_⟩
    simp only [SameKeys] at h2
    simp [SameKeys, h2]
end

/-! ## deep copies -/

theorem withValues_map {kvs : List HEnt} {cs : List Ptr} (h : kvs.length = cs.length) :
    (withValues kvs cs).map HEnt.v = cs ∧ (withValues kvs cs).map (fun e => (e.key, e.id)) = kvs.map (fun e => (e.key, e.id)) := by
  induction kvs generalizing cs with
  | nil => cases cs with
    | nil => exact ⟨rfl, rfl⟩
    | cons c cs => simp at h
  | cons x kvs ih => cases cs with
    | nil => simp at h
    | cons c cs =>
      obtain ⟨h1, h2⟩ := ih (by simpa using h)
      simp [withValues, h1, h2]

theorem hcopyList_fresh {f : Heap → Ptr → Heap × R Ptr} {n : Nat}
    (hf : ∀ {h : Heap} {p v F}, Hangs h p v F → F.length < n → ∃ q, (f h p).2 = .ok q ∧ Fresh h (copied v) ((f h p).1, q)) :
    ∀ {h : Heap} {ps vs F}, HangsL h ps vs F → F.length < n → ∃ qs, (hcopyList f h ps).2 = .ok qs ∧ FreshL h (vs.map copied) ((hcopyList f h ps).1, qs) := by
  intro h ps
  induction ps generalizing h with
  | nil => intro vs F hs _; cases hs; exact ⟨[], rfl, freshL_nil h⟩
  | cons p ps ih =>
    intro vs F hs hlt
    cases hs with
    | cons _ v F _ vs G hp hps =>
      simp only [List.length_append] at hlt
      obtain ⟨q, h1, h2⟩ := hf hp (by omega)
      cases hr : f h p with
      | mk h' r =>
        rw [hr] at h1 h2
        simp only at h1 h2
        subst h1
        obtain ⟨ext, K, h3, -⟩ := id h2
        simp only at h3
        obtain ⟨qs, h4, h5⟩ := ih (h := h') (by rw [h3]; exact showsL_prefix hps) (by omega)
        cases hr2 : hcopyList f h' ps with
        | mk h'' r2 =>
          rw [hr2] at h4 h5
          simp only at h4 h5
          subst h4
          simp only [hcopyList, hr, hr2]
          exact ⟨q :: qs, rfl, freshL_cons h2 h5⟩

/-- a deep copy consists of new objects and shows the same tree, even if the original has a node in several places -/
theorem hdeepCopy_fresh : ∀ (n : Nat) {h : Heap} {p v F}, Hangs h p v F → F.length < n →
    ∃ q, (hdeepCopy n h p).2 = .ok q ∧ Fresh h (copied v) ((hdeepCopy n h p).1, q) := by
  intro n
  induction n with
  | zero => intro h p v F _ hlt; omega
  | succ n ih =>
    intro h p v F hs hlt
    cases hs with
    | nil => exact ⟨_, rfl, fresh_leaf h trivial rfl rfl⟩
    | node a c v G ha hsh hk =>
      simp only [List.length_cons] at hlt
      have hcp := hcopyList_fresh (f := hdeepCopy n) ih hk (by omega)
      cases c <;> cases v <;> (try exact hsh.elim) <;> simp only [hdeepCopy, ha]
      · exact ⟨_, rfl, fresh_leaf h trivial rfl rfl⟩
      · exact ⟨_, rfl, fresh_leaf h hsh rfl rfl⟩
      · exact ⟨_, rfl, fresh_leaf h hsh rfl rfl⟩
      · exact ⟨_, rfl, fresh_leaf h hsh rfl rfl⟩
      · exact ⟨_, rfl, fresh_leaf h trivial rfl rfl⟩
      · rename_i ps xs
        simp only [kids, treeKids] at hcp
        obtain ⟨qs, h1, h2⟩ := hcp
        cases hr : hcopyList (hdeepCopy n) h ps with
        | mk h' r =>
          rw [hr] at h1 h2
          simp only at h1 h2
          subst h1
          refine ⟨_, rfl, ?_⟩
          exact fresh_node (s := (h', qs)) h2 trivial rfl (by simp [copied, treeKids, copiedL_map])
      · rename_i m kvs low m' es low'
        simp only [kids, treeKids] at hcp
        obtain ⟨rfl, rfl, h4⟩ := hsh
        obtain ⟨qs, h1, h2⟩ := hcp
        cases hr : hcopyList (hdeepCopy n) h (kvs.map HEnt.v) with
        | mk h' r =>
          rw [hr] at h1 h2
          simp only at h1 h2
          subst h1
          refine ⟨_, rfl, ?_⟩
          obtain ⟨ext, K, -, h5, -⟩ := id h2
          have hlen := showsL_length h5
          have hlk := showsL_length hk
          simp only [kids, treeKids, List.length_map] at hlen hlk
          obtain ⟨h6, h7⟩ := withValues_map (kvs := kvs) (cs := qs) (by omega)
          exact fresh_node (s := (h', qs)) h2 ⟨rfl, rfl, by rw [h7, h4]; exact (copiedM_keys es).symm⟩ h6 (by simp [copied, treeKids, copiedM_map])

end JV
