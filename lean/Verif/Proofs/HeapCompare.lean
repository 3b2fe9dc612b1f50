import Verif.Spec.HeapCompare
import Verif.Proofs.Compare
import Verif.Proofs.HeapRead
import Verif.Proofs.HeapCopy
/-! Equal and Contains on objects in memory. -/
namespace JV
open Spec

variable {D : DecFn} {h : Heap}

theorem hreadList_each {f : Ptr → R V} : ∀ {ps : List Ptr} {vs : List V}, hreadList f ps = .ok vs → ∀ p ∈ ps, ∃ v, f p = .ok v
  | [], _, _, p, hp => by cases hp
  | x :: xs, vs, hv, p, hp => by
    rw [hreadList] at hv
    cases hx : f x with
    | ok v =>
      rw [hx] at hv
      cases hl : hreadList f xs with
      | ok ws =>
        rcases List.mem_cons.1 hp with rfl | hp
        · exact ⟨v, hx⟩
        · exact hreadList_each hl p hp
      | _ => rw [hl] at hv; cases hv
    | _ => rw [hx] at hv; cases hv

theorem hreadList_all {f : Ptr → R V} : ∀ {ps : List Ptr}, (∀ p ∈ ps, ∃ v, f p = .ok v) → ∃ vs, hreadList f ps = .ok vs
  | [], _ => ⟨[], rfl⟩
  | p :: ps, hp => by
    obtain ⟨v, hv⟩ := hp p (by simp)
    obtain ⟨vs, hvs⟩ := hreadList_all (ps := ps) fun q hq => hp q (by simp [hq])
    exact ⟨v :: vs, by simp only [hreadList, hv, hvs]⟩

/-- what was read: each child with one call less -/
theorem hread_kids {n a : Nat} {v : V} {c : Cell} (hv : hread (n + 1) h (some a) = .ok v) (hc : h[a]? = some c) : ∀ p ∈ kids c, ∃ w, hread n h p = .ok w := by
  rw [hread] at hv
  simp only [hc] at hv
  cases c with
  | arr xs =>
    simp only at hv
    cases hl : hreadList (hread n h) xs with
    | ok ws => exact hreadList_each hl
    | _ => rw [hl] at hv; cases hv
  | obj m kvs low =>
    simp only at hv
    cases hl : hreadList (hread n h) (kvs.map HEnt.v) with
    | ok ws => exact hreadList_each hl
    | _ => rw [hl] at hv; cases hv
  | _ => intro p hp; cases hp

theorem hread_of_kids {n a : Nat} {c : Cell} (hc : h[a]? = some c) (hk : ∀ p ∈ kids c, ∃ w, hread n h p = .ok w) : ∃ v, hread (n + 1) h (some a) = .ok v := by
  rw [hread]
  simp only [hc]
  cases c with
  | arr xs => obtain ⟨vs, hvs⟩ := hreadList_all (f := hread n h) (ps := xs) hk; exact ⟨_, by simp only [hvs]; rfl⟩
  | obj m kvs low => obtain ⟨vs, hvs⟩ := hreadList_all (f := hread n h) (ps := kvs.map HEnt.v) hk; exact ⟨_, by simp only [hvs]; rfl⟩
  | _ => exact ⟨_, rfl⟩

/-! ### the loops -/

theorem hequalL_ends {rec : Ptr → Ptr → R Bool} : ∀ {xs ys : List Ptr}, (∀ x ∈ xs, ∀ y ∈ ys, rec x y ≠ .diverge) → hequalL rec xs ys ≠ .diverge
  | [], _, _ => by simp [hequalL]
  | _ :: _, [], _ => by simp [hequalL]
  | x :: xs, y :: ys, hr => by
    have h1 := hr x (by simp) y (by simp)
    rw [hequalL]
    split
    · exact hequalL_ends fun a ha b hb => hr a (by simp [ha]) b (by simp [hb])
    · exact h1

theorem hequalM_ends {rec : Ptr → Ptr → R Bool} : ∀ {xs ys : List HEnt}, (∀ x ∈ xs, ∀ y ∈ ys, rec x.v y.v ≠ .diverge) → hequalM rec xs ys ≠ .diverge
  | [], _, _ => by simp [hequalM]
  | x :: xs, ys, hr => by
    rw [hequalM]
    split
    · simp
    · rename_i e' he
      have h1 := hr x (by simp) e' (hlookup_mem he).1
      split
      · exact hequalM_ends fun a ha b hb => hr a (by simp [ha]) b hb
      · exact h1

/-- with one side that ends, Equal ends -/
theorem hequal_ends : ∀ (n : Nat) {p q : Ptr}, ((∃ v, hread n h p = .ok v) ∨ ∃ w, hread n h q = .ok w) → hequal D n h p q ≠ .diverge
  | 0, p, q, hr => by rcases hr with ⟨v, hv⟩ | ⟨v, hv⟩ <;> cases hv
  | n + 1, p, q, hr => by
    have ih := fun p q => hequal_ends n (p := p) (q := q)
    unfold hequal
    cases p with
    | none => simp
    | some a =>
      cases q with
      | none => simp
      | some b =>
        simp only
        cases hc : h[a]? with
        | none => simp
        | some c =>
          cases hd : h[b]? with
          | none => simp
          | some c' =>
            have hk : ∀ x ∈ kids c, ∀ y ∈ kids c', hequal D n h x y ≠ .diverge := fun x hx y hy => ih x y <| by
              rcases hr with ⟨v, hv⟩ | ⟨v, hv⟩
              · exact .inl (hread_kids hv hc x hx)
              · exact .inr (hread_kids hv hd y hy)
            simp only
            split
            · simp
            · simp
            · split
              · simp
              · exact hequalM_ends fun x hx y hy => hk _ (List.mem_map_of_mem hx) _ (List.mem_map_of_mem hy)
            · split
              · simp
              · exact hequalL_ends hk
            · simp
            · simp
            · simp

theorem hanyStart_ends {f : Nat → R Bool} : ∀ {is : List Nat}, (∀ i ∈ is, f i ≠ .diverge) → hanyStart f is ≠ .diverge
  | [], _ => by simp [hanyStart]
  | i :: is, hf => by
    have h1 := hf i (by simp)
    rw [hanyStart]
    split
    · exact hanyStart_ends fun j hj => hf j (by simp [hj])
    · exact h1

theorem hrunFrom_ends {rec : Ptr → Ptr → R Bool} {xs : List Ptr} : ∀ {ys : List Ptr} {i : Nat}, (∀ x ∈ xs, ∀ y ∈ ys, rec x y ≠ .diverge) → hrunFrom rec xs i ys ≠ .diverge
  | [], _, _ => by simp [hrunFrom]
  | y :: ys, i, hr => by
    rw [hrunFrom]
    split
    · simp
    · rename_i x hx
      have h1 := hr x (List.mem_of_getElem? hx) y (by simp)
      split
      · exact hrunFrom_ends fun a ha b hb => hr a ha b (by simp [hb])
      · exact h1

theorem hobjectHas_ends {rec : Ptr → Ptr → R Bool} {r : List HEnt} : ∀ {es : List HEnt}, (∀ x ∈ r, ∀ y ∈ es, rec x.v y.v ≠ .diverge) → hobjectHas rec r es ≠ .diverge
  | [], _ => by simp [hobjectHas]
  | e :: es, hr => by
    rw [hobjectHas]
    split
    · simp
    · rename_i e' he
      have h1 := hr e' (hlookup_mem he).1 e (by simp)
      split
      · exact hobjectHas_ends fun a ha b hb => hr a ha b (by simp [hb])
      · exact h1

theorem hread_mono1 : ∀ (n : Nat) {p : Ptr} {v : V}, hread n h p = .ok v → ∃ w, hread (n + 1) h p = .ok w
  | 0, _, _, hv => by cases hv
  | n + 1, none, _, _ => ⟨_, rfl⟩
  | n + 1, some a, v, hv => by
    cases hc : h[a]? with
    | none => rw [hread] at hv; simp only [hc] at hv; cases hv
    | some c => 
      exact hread_of_kids hc fun p hp => by
        obtain ⟨w, hw⟩ := hread_kids hv hc p hp
        exact hread_mono1 n hw

theorem hcontains_ends : ∀ (n : Nat) {p q : Ptr}, ((∃ v, hread n h p = .ok v) ∨ ∃ w, hread n h q = .ok w) → hcontains D (n + 1) h p q ≠ .diverge
  | n, p, q, hr => by
    unfold hcontains
    cases p with
    | none => simp
    | some a =>
      cases q with
      | none => simp
      | some b =>
        simp only
        cases hc : h[a]? with
        | none => simp
        | some c =>
          cases hd : h[b]? with
          | none => simp
          | some c' =>
            simp only
            cases n with
            | zero => rcases hr with ⟨v, hv⟩ | ⟨v, hv⟩ <;> cases hv
            | succ n =>
              have hk' : ∀ x ∈ kids c, ∀ y ∈ kids c', (∃ v, hread n h x = .ok v) ∨ ∃ w, hread n h y = .ok w := fun x hx y hy => by
                rcases hr with ⟨v, hv⟩ | ⟨v, hv⟩
                · exact .inl (hread_kids hv hc x hx)
                · exact .inr (hread_kids hv hd y hy)
              split
              · exact hobjectHas_ends fun x hx y hy => hcontains_ends n (hk' _ (List.mem_map_of_mem hx) _ (List.mem_map_of_mem hy))
              · split
                · simp
                · split
                  · exact hequal_ends _ hr.symm
                  · split
                    · simp
                    · refine hanyStart_ends fun i _ => ?_
                      split
                      · simp
                      · refine hrunFrom_ends fun x hx y hy => hequal_ends (n + 1) ?_
                        rcases hk' x hx y hy with ⟨v, hv⟩ | ⟨v, hv⟩
                        · exact .inl (hread_mono1 n hv)
                        · exact .inr (hread_mono1 n hv)
              · exact hequal_ends _ hr

/-! ### more stack changes nothing -/

theorem hequalL_mono {r1 r2 : Ptr → Ptr → R Bool} (hr : ∀ x y, r1 x y ≠ .diverge → r2 x y = r1 x y) : ∀ {xs ys : List Ptr}, hequalL r1 xs ys ≠ .diverge → hequalL r2 xs ys = hequalL r1 xs ys
  | [], _, _ => by simp [hequalL]
  | _ :: _, [], _ => by simp [hequalL]
  | x :: xs, y :: ys, hd => by
    simp only [hequalL] at hd ⊢
    have h1 : r1 x y ≠ .diverge := fun h => by rw [h] at hd; exact hd rfl
    rw [hr x y h1]
    split
    · rename_i h2
      rw [h2] at hd
      exact hequalL_mono hr hd
    · rfl

theorem hequalM_mono {r1 r2 : Ptr → Ptr → R Bool} (hr : ∀ x y, r1 x y ≠ .diverge → r2 x y = r1 x y) : ∀ {xs ys : List HEnt}, hequalM r1 xs ys ≠ .diverge → hequalM r2 xs ys = hequalM r1 xs ys
  | [], _, _ => by simp [hequalM]
  | x :: xs, ys, hd => by
    simp only [hequalM] at hd ⊢
    split
    · rfl
    · rename_i e' he
      rw [he] at hd
      simp only at hd
      have h1 : r1 x.v e'.v ≠ .diverge := fun h => by rw [h] at hd; exact hd rfl
      rw [hr _ _ h1]
      split
      · rename_i h2
        rw [h2] at hd
        exact hequalM_mono hr hd
      · rfl

theorem hequal_mono1 : ∀ (n : Nat) {p q : Ptr}, hequal D n h p q ≠ .diverge → hequal D (n + 1) h p q = hequal D n h p q
  | 0, _, _, hd => absurd rfl hd
  | n + 1, p, q, hd => by
    have ih := fun p q => hequal_mono1 n (p := p) (q := q)
    unfold hequal at hd ⊢
    cases p with
    | none => rfl
    | some a =>
      cases q with
      | none => rfl
      | some b =>
        simp only at hd ⊢
        cases hc : h[a]? with
        | none => rfl
        | some c =>
          cases hd' : h[b]? with
          | none => rfl
          | some c' =>
            rw [hc, hd'] at hd
            simp only at hd ⊢
            cases c <;> cases c' <;> simp only at hd ⊢
            · split
              · rfl
              · rename_i hl
                rw [if_neg hl] at hd
                exact hequalL_mono ih hd
            · split
              · rfl
              · rename_i hl
                rw [if_neg hl] at hd
                exact hequalM_mono ih hd

theorem hequal_mono {n m : Nat} {p q : Ptr} (hd : hequal D n h p q ≠ .diverge) (hm : n ≤ m) : hequal D m h p q = hequal D n h p q := by
  induction hm with
  | refl => rfl
  | step _ ih => rw [hequal_mono1 _ (by rw [ih]; exact hd), ih]

theorem hobjectHas_mono {r1 r2 : Ptr → Ptr → R Bool} {r : List HEnt} (hr : ∀ x y, r1 x y ≠ .diverge → r2 x y = r1 x y) : ∀ {es : List HEnt}, hobjectHas r1 r es ≠ .diverge → hobjectHas r2 r es = hobjectHas r1 r es
  | [], _ => by simp [hobjectHas]
  | x :: xs, hd => by
    simp only [hobjectHas] at hd ⊢
    split
    · rfl
    · rename_i e' he
      rw [he] at hd
      simp only at hd
      have h1 : r1 e'.v x.v ≠ .diverge := fun h => by rw [h] at hd; exact hd rfl
      rw [hr _ _ h1]
      split
      · rename_i h2
        rw [h2] at hd
        exact hobjectHas_mono hr hd
      · rfl

theorem hrunFrom_mono {r1 r2 : Ptr → Ptr → R Bool} {xs : List Ptr} (hr : ∀ x y, r1 x y ≠ .diverge → r2 x y = r1 x y) : ∀ {ys : List Ptr} {i : Nat}, hrunFrom r1 xs i ys ≠ .diverge → hrunFrom r2 xs i ys = hrunFrom r1 xs i ys
  | [], _, _ => by simp [hrunFrom]
  | y :: ys, i, hd => by
    simp only [hrunFrom] at hd ⊢
    split
    · rfl
    · rename_i x he
      rw [he] at hd
      simp only at hd
      have h1 : r1 x y ≠ .diverge := fun h => by rw [h] at hd; exact hd rfl
      rw [hr _ _ h1]
      split
      · rename_i h2
        rw [h2] at hd
        exact hrunFrom_mono hr hd
      · rfl

theorem hanyStart_mono {f g : Nat → R Bool} (hr : ∀ i, f i ≠ .diverge → g i = f i) : ∀ {is : List Nat}, hanyStart f is ≠ .diverge → hanyStart g is = hanyStart f is
  | [], _ => by simp [hanyStart]
  | i :: is, hd => by
    simp only [hanyStart] at hd ⊢
    have h1 : f i ≠ .diverge := fun h => by rw [h] at hd; exact hd rfl
    rw [hr i h1]
    split
    · rename_i h2
      rw [h2] at hd
      exact hanyStart_mono hr hd
    · rfl

theorem hcontains_mono1 : ∀ (n : Nat) {p q : Ptr}, hcontains D n h p q ≠ .diverge → hcontains D (n + 1) h p q = hcontains D n h p q
  | 0, _, _, hd => absurd rfl hd
  | n + 1, p, q, hd => by
    have ih := fun p q => hcontains_mono1 n (p := p) (q := q)
    have ie := fun p q => hequal_mono1 (D := D) (h := h) n (p := p) (q := q)
    unfold hcontains at hd ⊢
    cases p with
    | none => rfl
    | some a =>
      cases q with
      | none => rfl
      | some b =>
        simp only at hd ⊢
        cases hc : h[a]? with
        | none => rfl
        | some c =>
          cases hd' : h[b]? with
          | none => rfl
          | some c' =>
            rw [hc, hd'] at hd
            cases c with
            | obj m kvs low =>
              cases c' with
              | obj m' kvs' low' => exact hobjectHas_mono ih hd
              | _ => exact ie _ _ hd
            | arr xs =>
              cases c' with
              | arr ys =>
                simp only at hd ⊢
                split
                · rfl
                · rename_i h1
                  rw [if_neg h1] at hd
                  split
                  · rename_i h2
                    rw [if_pos h2] at hd
                    exact ie _ _ hd
                  · rename_i h2
                    rw [if_neg h2] at hd
                    split
                    · rfl
                    · rename_i h3
                      rw [if_neg h3] at hd
                      refine hanyStart_mono (fun i hi => ?_) hd
                      split
                      · rfl
                      · rename_i h4
                        rw [if_neg h4] at hi
                        exact hrunFrom_mono ie hi
              | _ => exact ie _ _ hd
            | _ => exact ie _ _ hd

theorem hcontains_mono {n m : Nat} {p q : Ptr} (hd : hcontains D n h p q ≠ .diverge) (hm : n ≤ m) : hcontains D m h p q = hcontains D n h p q := by
  induction hm with
  | refl => rfl
  | step _ ih => rw [hcontains_mono1 _ (by rw [ih]; exact hd), ih]

/-! ### looking alike -/

theorem hequalL_alike {rec : Ptr → Ptr → R Bool} : ∀ {xs ys : List Ptr}, xs.length = ys.length → (∀ (i : Nat) x y, xs[i]? = some x → ys[i]? = some y → rec x y = .ok true ∨ rec x y = .diverge) →
    hequalL rec xs ys = .ok true ∨ hequalL rec xs ys = .diverge
  | [], _, _, _ => .inl rfl
  | _ :: _, [], hl, _ => by simp at hl
  | x :: xs, y :: ys, hl, hr => by
    rw [hequalL]
    rcases hr 0 x y rfl rfl with h1 | h1 <;> rw [h1]
    · exact hequalL_alike (by simpa using hl) fun i a b ha hb => hr (i + 1) a b (by simpa using ha) (by simpa using hb)
    · exact .inr rfl

theorem hequalM_alike {rec : Ptr → Ptr → R Bool} {r : List HEnt} : ∀ {es : List HEnt}, (∀ e ∈ es, ∃ e', hlookup e.key r = some e' ∧ (rec e.v e'.v = .ok true ∨ rec e.v e'.v = .diverge)) →
    hequalM rec es r = .ok true ∨ hequalM rec es r = .diverge
  | [], _ => .inl rfl
  | e :: es, hr => by
    obtain ⟨e', he, h1⟩ := hr e (by simp)
    rw [hequalM, he]
    simp only
    rcases h1 with h1 | h1 <;> rw [h1]
    · exact hequalM_alike fun x hx => hr x (by simp [hx])
    · exact .inr rfl

theorem hequal_alike {Rel : Nat → Nat → Prop} (hR : ∀ x y, Rel x y → ∃ c c', h[x]? = some c ∧ h[y]? = some c' ∧ CellsAgree (valOf D) Rel c c') : ∀ (n : Nat) {a b : Nat}, Rel a b →
    hequal D n h (some a) (some b) = .ok true ∨ hequal D n h (some a) (some b) = .diverge
  | 0, _, _, _ => .inr rfl
  | n + 1, a, b, hab => by
    obtain ⟨c, c', hc, hc', hA⟩ := hR a b hab
    have ih := fun a b => hequal_alike hR n (a := a) (b := b)
    rw [hequal]
    simp only [hc, hc']
    cases c <;> cases c' <;> simp only [CellsAgree] at hA ⊢
    · exact .inl (by simp [hA])
    · exact .inl (by rw [(numberEqual_iff D _ _).2 hA])
    · exact .inl (by simp [hA])
    · exact .inl trivial
    · rw [if_neg (by simp [hA.1])]
      refine hequalL_alike hA.1 fun i x y hx hy => ?_
      obtain ⟨a, b, rfl, rfl, hr⟩ := hA.2 i x y hx hy
      exact ih a b hr
    · rw [if_neg (by simp [hA.1])]
      refine hequalM_alike fun e he => ?_
      obtain ⟨e', a, b, h1, h2, h3, h4⟩ := hA.2 e he
      refine ⟨e', by rw [hlookup_find]; exact h1, ?_⟩
      rw [h2, h3]
      exact ih a b h4

theorem hequalL_true {rec : Ptr → Ptr → R Bool} : ∀ {xs ys : List Ptr}, hequalL rec xs ys = .ok true → ∀ (i : Nat) x y, xs[i]? = some x → ys[i]? = some y → rec x y = .ok true
  | [], _, _, i, x, y, hx, _ => by simp at hx
  | _ :: _, [], _, i, x, y, _, hy => by simp at hy
  | x :: xs, y :: ys, hv, i, a, b, ha, hb => by
    rw [hequalL] at hv
    split at hv
    · rename_i h1
      cases i with
      | zero => cases ha; cases hb; exact h1
      | succ i => exact hequalL_true hv i a b (by simpa using ha) (by simpa using hb)
    · rename_i h1; exact absurd hv h1

theorem hequalM_true {rec : Ptr → Ptr → R Bool} {r : List HEnt} : ∀ {es : List HEnt}, hequalM rec es r = .ok true → ∀ e ∈ es, ∃ e', hlookup e.key r = some e' ∧ rec e.v e'.v = .ok true
  | [], _, e, he => by cases he
  | x :: es, hv, e, he => by
    rw [hequalM] at hv
    split at hv
    · cases hv
    · rename_i e' h2
      split at hv
      · rename_i h1
        rcases List.mem_cons.1 he with rfl | he
        · exact ⟨e', h2, h1⟩
        · exact hequalM_true hv e he
      · rename_i h1; exact absurd hv h1

/-- what a true answer tells about the two objects and their children -/
theorem hequal_true {n : Nat} {p q : Ptr} (hv : hequal D (n + 1) h p q = .ok true) : ∃ a b c c', p = some a ∧ q = some b ∧ h[a]? = some c ∧ h[b]? = some c' ∧
    CellsAgree (valOf D) (fun x y => hequal D n h (some x) (some y) = .ok true) c c' ∧ ∀ x ∈ kids c, ∃ y, hequal D n h x y = .ok true := by
  have hs : ∀ {p q : Ptr} {n : Nat}, hequal D n h p q = .ok true → ∃ a b, p = some a ∧ q = some b := by
    intro p q n hv
    cases n with
    | zero => cases hv
    | succ n =>
      unfold hequal at hv
      cases p with
      | none => cases hv
      | some a =>
        cases q with
        | none => cases hv
        | some b => exact ⟨a, b, rfl, rfl⟩
  obtain ⟨a, b, rfl, rfl⟩ := hs hv
  unfold hequal at hv
  simp only at hv
  cases hc : h[a]? with
  | none => rw [hc] at hv; cases hv
  | some c =>
    cases hd : h[b]? with
    | none => rw [hc, hd] at hv; cases hv
    | some c' =>
      rw [hc, hd] at hv
      simp only at hv
      refine ⟨a, b, c, c', rfl, rfl, hc, hd, ?_⟩
      cases c <;> cases c' <;> simp only [CellsAgree, kids, reduceCtorEq, List.not_mem_nil, false_implies, implies_true, and_true, R.ok.injEq, Bool.false_eq_true] at hv ⊢
      · simpa using hv
      · exact (numberEqual_iff D _ _).1 hv
      · simpa using hv
      · rename_i xs ys
        split at hv
        · cases hv
        · rename_i hl
          have hl : xs.length = ys.length := Decidable.not_not.1 hl
          have ht := hequalL_true hv
          refine ⟨⟨hl, fun i x y hx hy => ?_⟩, fun x hx => ?_⟩
          · have := ht i x y hx hy
            obtain ⟨a, b, rfl, rfl⟩ := hs this
            exact ⟨a, b, rfl, rfl, this⟩
          · obtain ⟨i, hi⟩ := List.mem_iff_getElem?.1 hx
            have : i < ys.length := by rw [← hl]; exact (List.getElem?_eq_some_iff.1 hi).1
            exact ⟨_, ht i x _ hi (List.getElem?_eq_getElem this)⟩
      · rename_i n1 kvs l1 n2 kvs' l2
        split at hv
        · cases hv
        · rename_i hl
          have ht := hequalM_true hv
          refine ⟨⟨Decidable.not_not.1 hl, fun e he => ?_⟩, fun x hx => ?_⟩
          · obtain ⟨e', h1, h2⟩ := ht e he
            obtain ⟨a, b, h3, h4⟩ := hs h2
            rw [h3, h4] at h2
            exact ⟨e', a, b, by rw [← hlookup_find]; exact h1, h3, h4, h2⟩
          · obtain ⟨e, he, rfl⟩ := List.mem_map.1 hx
            obtain ⟨e', h1, h2⟩ := ht e he
            exact ⟨_, h2⟩

theorem hequal_true_read : ∀ (n : Nat) {p q : Ptr}, hequal D n h p q = .ok true → ∃ v, hread n h p = .ok v
  | 0, _, _, hv => by cases hv
  | n + 1, p, q, hv => by
    obtain ⟨a, b, c, c', rfl, rfl, hc, -, -, hk⟩ := hequal_true hv
    exact hread_of_kids hc fun x hx => by
      obtain ⟨y, hy⟩ := hk x hx
      exact hequal_true_read n hy

theorem _root_.Spec.CellsAgree.mono {R1 R2 : Nat → Nat → Prop} (hR : ∀ a b, R1 a b → R2 a b) {c c' : Cell} (hA : CellsAgree (valOf D) R1 c c') : CellsAgree (valOf D) R2 c c' := by
  cases c <;> cases c' <;> simp only [CellsAgree] at hA ⊢ <;> try exact hA
  · exact ⟨hA.1, fun i x y hx hy => let ⟨a, b, h1, h2, h3⟩ := hA.2 i x y hx hy; ⟨a, b, h1, h2, hR _ _ h3⟩⟩
  · exact ⟨hA.1, fun e he => let ⟨e', a, b, h0, h1, h2, h3⟩ := hA.2 e he; ⟨e', a, b, h0, h1, h2, hR _ _ h3⟩⟩

theorem alike_of_true {n a b : Nat} (hv : hequal D n h (some a) (some b) = .ok true) : LookAlike (valOf D) h a b := by
  refine ⟨fun x y => ∃ n, hequal D n h (some x) (some y) = .ok true, ⟨n, hv⟩, fun x y ⟨m, hm⟩ => ?_⟩
  cases m with
  | zero => cases hm
  | succ m =>
    obtain ⟨a, b, c, c', ha, hb, hc, hc', hA, -⟩ := hequal_true hm
    cases ha; cases hb
    exact ⟨c, c', hc, hc', hA.mono fun _ _ h1 => ⟨m, h1⟩⟩

/-! ### what the answer is on trees -/

theorem hequalL_tree {rec : Ptr → Ptr → R Bool} {f g : Ptr → R V} (hr : ∀ x y v w, f x = .ok v → g y = .ok w → rec x y = .ok (equal D v w)) :
    ∀ {xs ys : List Ptr} {vs ws : List V}, hreadList f xs = .ok vs → hreadList g ys = .ok ws → xs.length = ys.length → hequalL rec xs ys = .ok (equalL D vs ws)
  | [], [], vs, ws, h1, h2, _ => by cases h1; simp [hequalL, equalL]
  | [], _ :: _, _, _, _, _, hl => by simp at hl
  | _ :: _, [], _, _, _, _, hl => by simp at hl
  | x :: xs, y :: ys, vs, ws, h1, h2, hl => by
    rw [hreadList] at h1 h2
    cases hx : f x with
    | ok v =>
      cases hy : g y with
      | ok w =>
        cases hxs : hreadList f xs with
        | ok vs' =>
          cases hys : hreadList g ys with
          | ok ws' =>
            rw [hx, hxs] at h1; rw [hy, hys] at h2
            cases h1; cases h2
            have ih := hequalL_tree hr hxs hys (by simpa using hl)
            rw [hequalL, hr x y v w hx hy, equalL]
            cases equal D v w with
            | true => simpa using ih
            | false => rfl
          | _ => rw [hy, hys] at h2; cases h2
        | _ => rw [hx, hxs] at h1; cases h1
      | _ => rw [hy] at h2; cases h2
    | _ => rw [hx] at h1; cases h1

theorem lookup_entsOf {f : Ptr → R V} (k : Bytes) : ∀ {kvs : List HEnt} {vs : List V}, hreadList f (kvs.map HEnt.v) = .ok vs →
    (hlookup k kvs = none → lookup k (entsOf kvs vs) = none) ∧ ∀ e, hlookup k kvs = some e → ∃ e', lookup k (entsOf kvs vs) = some e' ∧ f e.v = .ok e'.v
  | [], vs, _ => by
    refine ⟨fun _ => ?_, fun e he => by cases he⟩
    cases vs <;> rfl
  | x :: kvs, vs, hv => by
    rw [List.map_cons, hreadList] at hv
    cases hx : f x.v with
    | ok v =>
      cases hl : hreadList f (kvs.map HEnt.v) with
      | ok ws =>
        rw [hx, hl] at hv
        cases hv
        obtain ⟨h1, h2⟩ := lookup_entsOf k hl
        by_cases hk : x.key = k
        · simp only [hlookup, entsOf, lookup, Ent.key, hk, if_true]
          refine ⟨fun h => (nomatch h), fun e he => ?_⟩
          cases he
          exact ⟨_, rfl, hx⟩
        · simp only [hlookup, entsOf, lookup, Ent.key, hk, if_false]
          exact ⟨h1, h2⟩
      | _ => rw [hx, hl] at hv; cases hv
    | _ => rw [hx] at hv; cases hv

theorem hequalM_tree {rec : Ptr → Ptr → R Bool} {f g : Ptr → R V} (hr : ∀ x y v w, f x = .ok v → g y = .ok w → rec x y = .ok (equal D v w))
    {r : List HEnt} {ws : List V} (hw : hreadList g (r.map HEnt.v) = .ok ws) :
    ∀ {es : List HEnt} {vs : List V}, hreadList f (es.map HEnt.v) = .ok vs → hequalM rec es r = .ok (equalM D (entsOf es vs) (entsOf r ws))
  | [], vs, _ => by cases vs <;> simp [hequalM, entsOf, equalM]
  | e :: es, vs, hv => by
    rw [List.map_cons, hreadList] at hv
    cases hx : f e.v with
    | ok v =>
      cases hl : hreadList f (es.map HEnt.v) with
      | ok vs' =>
        rw [hx, hl] at hv
        cases hv
        have ih := hequalM_tree hr hw hl
        obtain ⟨h1, h2⟩ := lookup_entsOf e.key hw
        simp only [hequalM, entsOf, equalM]
        cases hk : hlookup e.key r with
        | none => simp only [h1 hk]
        | some e' =>
          obtain ⟨e2, h3, h4⟩ := h2 e' hk
          simp only [h3, hr _ _ _ _ hx h4]
          cases equal D v e2.v with
          | true => simpa using ih
          | false => rfl
      | _ => rw [hx, hl] at hv; cases hv
    | _ => rw [hx] at hv; cases hv

theorem entsOf_length {f : Ptr → R V} {kvs : List HEnt} {vs : List V} (hv : hreadList f (kvs.map HEnt.v) = .ok vs) : (entsOf kvs vs).length = kvs.length := by
  induction kvs generalizing vs with
  | nil => cases vs <;> rfl
  | cons e kvs ih =>
    rw [List.map_cons, hreadList] at hv
    cases hx : f e.v with
    | ok v =>
      cases hl : hreadList f (kvs.map HEnt.v) with
      | ok vs' =>
        rw [hx, hl] at hv
        cases hv
        simp only [entsOf, List.length_cons, ih hl]
      | _ => rw [hx, hl] at hv; cases hv
    | _ => rw [hx] at hv; cases hv

theorem readList_length {f : Ptr → R V} {ps : List Ptr} {vs : List V} (hv : hreadList f ps = .ok vs) : vs.length = ps.length := by
  induction ps generalizing vs with
  | nil => cases hv; rfl
  | cons p ps ih =>
    rw [hreadList] at hv
    cases hx : f p with
    | ok v =>
      cases hl : hreadList f ps with
      | ok vs' =>
        rw [hx, hl] at hv
        cases hv
        simp only [List.length_cons, ih hl]
      | _ => rw [hx, hl] at hv; cases hv
    | _ => rw [hx] at hv; cases hv

/-- what a read value is, by the object -/
theorem hread_cell {n a : Nat} {v : V} (hv : hread (n + 1) h (some a) = .ok v) : ∃ c, h[a]? = some c ∧
    match c with
    | .notExist => v = .notExist
    | .str s => v = .str s
    | .num s m => v = .num s m
    | .bool b => v = .bool b
    | .null => v = .null
    | .arr xs => ∃ vs, hreadList (hread n h) xs = .ok vs ∧ v = .arr vs
    | .obj m kvs low => ∃ vs, hreadList (hread n h) (kvs.map HEnt.v) = .ok vs ∧ v = .obj m (entsOf kvs vs) low := by
  rw [hread] at hv
  cases hc : h[a]? with
  | none => rw [hc] at hv; cases hv
  | some c =>
    rw [hc] at hv
    refine ⟨c, rfl, ?_⟩
    cases c with
    | arr xs =>
      simp only at hv
      cases hl : hreadList (hread n h) xs with
      | ok ws => rw [hl] at hv; cases hv; exact ⟨ws, hl, rfl⟩
      | _ => rw [hl] at hv; cases hv
    | obj m kvs low =>
      simp only at hv
      cases hl : hreadList (hread n h) (kvs.map HEnt.v) with
      | ok ws => rw [hl] at hv; cases hv; exact ⟨ws, hl, rfl⟩
      | _ => rw [hl] at hv; cases hv
    | _ => cases hv; rfl

/-- on trees, Equal in memory is Equal of the trees -/
theorem hequal_tree : ∀ (n : Nat) {p q : Ptr} {v w : V}, hread n h p = .ok v → hread n h q = .ok w → hequal D n h p q = .ok (equal D v w)
  | 0, _, _, _, _, hv, _ => by cases hv
  | n + 1, none, q, v, w, hv, _ => by cases hv; unfold hequal equal; rfl
  | n + 1, some a, none, v, w, hv, hw => by
    cases hw
    obtain ⟨c, hc, h1⟩ := hread_cell hv
    unfold hequal
    simp only
    cases c <;> simp only at h1 <;> (try subst h1) <;> (try rfl)
    · obtain ⟨vs, -, rfl⟩ := h1; rfl
    · obtain ⟨vs, -, rfl⟩ := h1; rfl
  | n + 1, some a, some b, v, w, hv, hw => by
    have ih := fun p q v w => hequal_tree n (p := p) (q := q) (v := v) (w := w)
    obtain ⟨c, hc, h1⟩ := hread_cell hv
    obtain ⟨c', hd, h2⟩ := hread_cell hw
    unfold hequal
    simp only [hc, hd]
    cases c with
    | arr xs =>
      obtain ⟨vs, h3, rfl⟩ := h1
      cases c' with
      | arr ys =>
        obtain ⟨ws, h4, rfl⟩ := h2
        simp only [equal, readList_length h3, readList_length h4]
        split
        · rfl
        · rename_i hl
          exact hequalL_tree ih h3 h4 (Decidable.not_not.1 hl)
      | obj m kvs low => obtain ⟨ws, h4, rfl⟩ := h2; simp only [equal]
      | _ => simp only at h2; subst h2; simp only [equal]
    | obj m kvs low =>
      obtain ⟨vs, h3, rfl⟩ := h1
      cases c' with
      | arr ys => obtain ⟨ws, h4, rfl⟩ := h2; simp only [equal]
      | obj m' kvs' low' =>
        obtain ⟨ws, h4, rfl⟩ := h2
        simp only [equal, entsOf_length h3, entsOf_length h4]
        split
        · rfl
        · exact hequalM_tree ih h4 h3
      | _ => simp only at h2; subst h2; simp only [equal]
    | _ =>
      simp only at h1
      subst h1
      cases c' with
      | arr ys => obtain ⟨ws, h4, rfl⟩ := h2; simp only [equal]
      | obj m kvs low => obtain ⟨ws, h4, rfl⟩ := h2; simp only [equal]
      | _ => simp only at h2; subst h2; simp only [equal]

theorem readList_get {f : Ptr → R V} : ∀ {ps : List Ptr} {vs : List V}, hreadList f ps = .ok vs → ∀ {i : Nat} {p : Ptr}, ps[i]? = some p → ∃ v, vs[i]? = some v ∧ f p = .ok v
  | [], _, _, i, p, hp => by simp at hp
  | q :: ps, vs, hv, i, p, hp => by
    rw [hreadList] at hv
    cases hx : f q with
    | ok v =>
      cases hl : hreadList f ps with
      | ok vs' =>
        rw [hx, hl] at hv
        cases hv
        cases i with
        | zero => cases hp; exact ⟨v, rfl, hx⟩
        | succ i => exact readList_get hl (by simpa using hp)
      | _ => rw [hx, hl] at hv; cases hv
    | _ => rw [hx] at hv; cases hv

theorem hrunFrom_tree {rec : Ptr → Ptr → R Bool} {f : Ptr → R V} (hr : ∀ x y v w, f x = .ok v → f y = .ok w → rec x y = .ok (equal D v w)) {xs : List Ptr} {vs : List V}
    (hx : hreadList f xs = .ok vs) : ∀ {ys : List Ptr} {ws : List V} {i : Nat}, hreadList f ys = .ok ws → i + ys.length ≤ xs.length → hrunFrom rec xs i ys = .ok (runFrom D vs i ws)
  | [], ws, i, h2, _ => by cases h2; rfl
  | y :: ys, ws, i, h2, hl => by
    simp only [List.length_cons] at hl
    rw [hreadList] at h2
    cases hy : f y with
    | ok w =>
      cases hys : hreadList f ys with
      | ok ws' =>
        rw [hy, hys] at h2
        cases h2
        have hi : xs[i]? = some xs[i] := List.getElem?_eq_getElem (by omega)
        obtain ⟨v, hv, hfv⟩ := readList_get hx hi
        have ih := hrunFrom_tree hr hx hys (i := i + 1) (by omega)
        rw [hrunFrom, hi]
        simp only [hr _ _ _ _ hfv hy, runFrom, hv, Option.getD_some]
        cases equal D v w with
        | true => simpa using ih
        | false => rfl
      | _ => rw [hy, hys] at h2; cases h2
    | _ => rw [hy] at h2; cases h2

theorem hanyStart_tree {f : Nat → R Bool} {g : Nat → Bool} : ∀ {is : List Nat}, (∀ i ∈ is, f i = .ok (g i)) → hanyStart f is = .ok (is.any g)
  | [], _ => rfl
  | i :: is, hi => by
    have ih : hanyStart f is = .ok (is.any g) := hanyStart_tree fun j hj => hi j (by simp [hj])
    rw [hanyStart, hi i (by simp), List.any_cons]
    cases g i with
    | true => rfl
    | false => simpa using ih

theorem hobjectHas_tree {E : Env} {rec : Ptr → Ptr → R Bool} {f : Ptr → R V} (hr : ∀ x y v w, f x = .ok v → f y = .ok w → rec x y = contains E D w v)
    {n : BitVec 32} {low : Low} {r : List HEnt} {vs : List V} (hv : hreadList f (r.map HEnt.v) = .ok vs) :
    ∀ {es : List HEnt} {ws : List V}, hreadList f (es.map HEnt.v) = .ok ws → hobjectHas rec r es = objectHasSubset E D (.obj n (entsOf r vs) low) (entsOf es ws)
  | [], ws, _ => by cases ws <;> simp [hobjectHas, entsOf, objectHasSubset]
  | e :: es, ws, hw => by
    rw [List.map_cons, hreadList] at hw
    cases hx : f e.v with
    | ok w =>
      cases hl : hreadList f (es.map HEnt.v) with
      | ok ws' =>
        rw [hx, hl] at hw
        cases hw
        have ih := hobjectHas_tree hr (n := n) (low := low) hv hl
        obtain ⟨h1, h2⟩ := lookup_entsOf e.key hv
        simp only [hobjectHas, entsOf, objectHasSubset, get_key]
        cases hk : hlookup e.key r with
        | none => simp only [h1 hk]
        | some e' =>
          obtain ⟨e2, h3, h4⟩ := h2 e' hk
          simp only [h3, hr _ _ _ _ h4 hx, ih]
          cases contains E D w e2.v with
          | ok b => cases b <;> rfl
          | _ => rfl
      | _ => rw [hx, hl] at hw; cases hw
    | _ => rw [hx] at hw; cases hw

/-- on trees, Contains in memory is Contains of the trees -/
theorem hcontains_tree (E : Env) : ∀ (n : Nat) {p q : Ptr} {v w : V}, hread n h p = .ok v → hread n h q = .ok w → hcontains D (n + 1) h p q = contains E D w v
  | 0, _, _, _, _, hv, _ => by cases hv
  | n + 1, none, none, v, w, hv, hw => by cases hv; cases hw; unfold hcontains contains; rfl
  | n + 1, none, some b, v, w, hv, hw => by
    cases hv
    obtain ⟨c, hc, h1⟩ := hread_cell hw
    unfold hcontains
    simp only
    cases c <;> simp only at h1 <;> (try subst h1) <;> (try simp [contains, equal])
    · obtain ⟨vs, -, rfl⟩ := h1; simp [contains]
    · obtain ⟨vs, -, rfl⟩ := h1; simp [contains]
  | n + 1, some a, none, v, w, hv, hw => by
    cases hw
    obtain ⟨c, hc, h1⟩ := hread_cell hv
    unfold hcontains
    simp only
    cases c <;> simp only at h1 <;> (try subst h1) <;> (try simp [contains])
    · obtain ⟨vs, -, rfl⟩ := h1; simp [contains]
    · obtain ⟨vs, -, rfl⟩ := h1; simp [contains]
  | n + 1, some a, some b, v, w, hv, hw => by
    have ih := fun p q v w => hcontains_tree E n (p := p) (q := q) (v := v) (w := w)
    have he := hequal_tree (D := D) (n + 1) hv hw
    have he' := hequal_tree (D := D) (n + 1) hw hv
    have hm : ∀ x y v w, hread n h x = .ok v → hread n h y = .ok w → hequal D (n + 1) h x y = .ok (equal D v w) := fun x y v w h1 h2 => by
      have := hequal_tree (D := D) n h1 h2
      rw [hequal_mono (by rw [this]; exact fun h => nomatch h) (Nat.le_succ n), this]
    obtain ⟨c, hc, h1⟩ := hread_cell hv
    obtain ⟨c', hd, h2⟩ := hread_cell hw
    unfold hcontains
    simp only [hc, hd]
    cases c with
    | arr xs =>
      obtain ⟨vs, h3, rfl⟩ := h1
      cases c' with
      | arr ys =>
        obtain ⟨ws, h4, rfl⟩ := h2
        simp only [contains, arrayHasSubset, readList_length h3, readList_length h4]
        split
        · rfl
        split
        · exact he'
        split
        · rfl
        refine hanyStart_tree fun i hi => ?_
        split
        · rfl
        · exact hrunFrom_tree hm h3 h4 (by omega)
      | obj m kvs low => obtain ⟨ws, h4, rfl⟩ := h2; simp only [contains, he]; simp [equal]
      | _ => simp only at h2; subst h2; simp only [contains, he]
    | obj m kvs low =>
      obtain ⟨vs, h3, rfl⟩ := h1
      cases c' with
      | arr ys => obtain ⟨ws, h4, rfl⟩ := h2; simp only [contains, he]; simp [equal]
      | obj m' kvs' low' =>
        obtain ⟨ws, h4, rfl⟩ := h2
        simp only [contains]
        exact hobjectHas_tree ih h3 h4
      | _ => simp only at h2; subst h2; simp only [contains, he]
    | _ =>
      simp only at h1
      subst h1
      cases c' with
      | arr ys => obtain ⟨ws, h4, rfl⟩ := h2; simp only [contains, he]; simp [equal]
      | obj m kvs low => obtain ⟨ws, h4, rfl⟩ := h2; simp only [contains, he]; simp [equal]
      | _ => simp only at h2; subst h2; simp only [contains, he]

/-- a value looks like itself -/
theorem alike_self {a : Nat} (hV : Valid h) (ha : a < h.length) (hw : WholeBelow h a) : LookAlike (valOf D) h a a := by
  refine ⟨fun x y => x = y ∧ Reaches h a x, ⟨rfl, .refl a⟩, ?_⟩
  rintro x _ ⟨rfl, hx⟩
  obtain ⟨c, hc, -⟩ := hV x (reaches_in hV ha hx)
  obtain ⟨h1, h2, h3⟩ := hw x c hx hc
  have hk : ∀ p ∈ kids c, ∃ b, p = some b ∧ Reaches h a b := fun p hp => by
    cases p with
    | none => exact absurd rfl (h2 _ hp)
    | some b => exact ⟨b, rfl, reaches_trans hx (.step x b b c hc hp (.refl b))⟩
  refine ⟨c, c, hc, hc, ?_⟩
  cases c with
  | notExist => exact absurd rfl h1
  | arr xs =>
    refine ⟨rfl, fun i x y hx hy => ?_⟩
    rw [hx] at hy
    cases hy
    obtain ⟨b, rfl, hb⟩ := hk x (List.mem_of_getElem? hx)
    exact ⟨b, b, rfl, rfl, rfl, hb⟩
  | obj m kvs low =>
    refine ⟨rfl, fun e he => ?_⟩
    obtain ⟨b, h4, hb⟩ := hk e.v (List.mem_map_of_mem he)
    refine ⟨e, b, b, ?_, h4, h4, rfl, hb⟩
    have hn := h3 m kvs low rfl
    clear h1 h2 h3 hk hc
    induction kvs with
    | nil => cases he
    | cons x kvs ih =>
      rw [List.map_cons, List.nodup_cons] at hn
      rcases List.mem_cons.1 he with rfl | he
      · simp
      · have : ¬ x.key = e.key := fun h => hn.1 (h ▸ List.mem_map_of_mem he)
        rw [List.find?_cons_of_neg (by simpa using this)]
        exact ih he hn.2
  | _ => simp [CellsAgree]

/-! ### copies -/

theorem hcopyList_read {f : Heap → Ptr → Heap × R Ptr} {g : Ptr → R V}
    (hf : ∀ (ext : Heap) (p : Ptr) (q : Ptr), ValidPtr h p → (f (h ++ ext) p).2 = .ok q → (∃ v, g p = .ok v) ∧ ∃ ext', (f (h ++ ext) p).1 = h ++ ext') :
    ∀ (ps : List Ptr) (ext : Heap) (qs : List Ptr), (∀ p ∈ ps, ValidPtr h p) → (hcopyList f (h ++ ext) ps).2 = .ok qs →
      (∀ p ∈ ps, ∃ v, g p = .ok v) ∧ ∃ ext', (hcopyList f (h ++ ext) ps).1 = h ++ ext'
  | [], ext, qs, _, _ => ⟨fun p hp => (by cases hp), ext, rfl⟩
  | p :: ps, ext, qs, hp, hq => by
    unfold hcopyList at hq ⊢
    have h1 := hf ext p
    cases hr : f (h ++ ext) p with
    | mk h2 r =>
      rw [hr] at h1 hq
      cases r with
      | ok q =>
        obtain ⟨hv, ext', he⟩ := h1 q (hp p (by simp)) rfl
        simp only at he
        subst he
        simp only at hq ⊢
        have h3 := hcopyList_read hf ps ext'
        cases hl : hcopyList f (h ++ ext') ps with
        | mk h4 r2 =>
          rw [hl] at h3 hq
          cases r2 with
          | ok qs' =>
            obtain ⟨h5, h6⟩ := h3 qs' (fun x hx => hp x (by simp [hx])) rfl
            exact ⟨fun x hx => (List.mem_cons.1 hx).elim (fun e => e ▸ hv) (h5 x), h6⟩
          | _ => cases hq
      | _ => cases hq

/-- a copy that was made shows that the value ends -/
theorem hdeepCopy_read (hV : Valid h) : ∀ (n : Nat) (ext : Heap) (p q : Ptr), ValidPtr h p → (hdeepCopy n (h ++ ext) p).2 = .ok q →
    (∃ v, hread n h p = .ok v) ∧ ∃ ext', (hdeepCopy n (h ++ ext) p).1 = h ++ ext'
  | 0, _, _, _, _, hq => by cases hq
  | n + 1, ext, none, q, _, _ => ⟨⟨_, rfl⟩, ext ++ [.notExist], by simp [hdeepCopy]⟩
  | n + 1, ext, some a, q, hp, hq => by
    have ha := hp a rfl
    obtain ⟨c, hc, hk⟩ := hV a ha
    have hc' : (h ++ ext)[a]? = some c := by rw [List.getElem?_append_left ha]; exact hc
    have hkv : ∀ p ∈ kids c, ValidPtr h p := fun p hp b hb => hk b (hb ▸ hp)
    unfold hdeepCopy at hq ⊢
    simp only [hc'] at hq ⊢
    cases c with
    | arr xs =>
      simp only at hq ⊢
      have h1 := hcopyList_read (hdeepCopy_read hV n) xs ext
      cases hl : hcopyList (hdeepCopy n) (h ++ ext) xs with
      | mk h2 r =>
        rw [hl] at h1 hq
        cases r with
        | ok ys =>
          obtain ⟨h3, ext', h4⟩ := h1 ys hkv rfl
          simp only at h4
          exact ⟨hread_of_kids hc h3, ext' ++ [.arr ys], by simp [h4]⟩
        | _ => cases hq
    | obj m kvs low =>
      simp only at hq ⊢
      have h1 := hcopyList_read (hdeepCopy_read hV n) (kvs.map HEnt.v) ext
      cases hl : hcopyList (hdeepCopy n) (h ++ ext) (kvs.map HEnt.v) with
      | mk h2 r =>
        rw [hl] at h1 hq
        cases r with
        | ok ys =>
          obtain ⟨h3, ext', h4⟩ := h1 ys hkv rfl
          simp only at h4
          exact ⟨hread_of_kids hc h3, ext' ++ [.obj m (withValues kvs ys) none], by simp [h4]⟩
        | _ => cases hq
    | _ => exact ⟨hread_of_kids hc fun p hp => (by cases hp), ext ++ [_], List.append_assoc ..⟩

end JV
