import Verif.Spec.Export
import Verif.Proofs.RoundTrip
import Verif.Proofs.Unambiguous
/-! Lemmas on Export. -/
namespace JV
open Spec

theorem jnum_ne_nil {t : Bytes} (h : JNum t) : t ≠ [] := by
  obtain ⟨⟨c, u, rfl, _⟩, _⟩ := jnum_shape h
  simp

theorem allNumsL_of {P : Bytes → Prop} : ∀ js : List J, (∀ (i : Nat) j, js[i]? = some j → j.AllNums P) → AllNumsL P js
  | [], _ => trivial
  | j :: js, h => ⟨h 0 j rfl, allNumsL_of js fun i k hk => h (i + 1) k hk⟩

theorem allNumsM_of {P : Bytes → Prop} : ∀ ms : List Mem, (∀ (i : Nat) m, ms[i]? = some m → m.v.AllNums P) → AllNumsM P ms
  | [], _ => trivial
  | ⟨k, v⟩ :: ms, h => ⟨h 0 ⟨k, v⟩ rfl, allNumsM_of ms fun i m hm => h (i + 1) m hm⟩

theorem exportable_printable {E : Env} {pf : Bytes → Option (BitVec 64)} {o : Opt} {v : V} (h : Her (Exportable pf) v) :
    Her (Printable E o JNum (fun s => 0xB ∉ s)) v := fun l c hc => by
  have := h l c hc
  cases c with
  | nilp => exact this
  | notExist => exact this
  | str s => exact this.2
  | num src n =>
    have hs : special src n = none := by simp [special, jnum_ne_nil this.1]
    exact ⟨fun _ => this.1, fun s hs' => by rw [hs] at hs'; cases hs'⟩
  | obj n kvs low => exact fun e he => (this e he).2
  | null => trivial
  | bool b => trivial
  | arr xs => trivial

theorem exportable_marshalable {pf : Bytes → Option (BitVec 64)} {v : V} (hk : Her KeysNodup v) (h : Her (Exportable pf) v) : Marshalable v :=
  ⟨hk, noNil_her fun l c hc he => by have := h l c hc; rw [he] at this; exact this, fun he => by have := her_self h; rw [he] at this; exact this⟩

/-- a number with a text that satisfies `P` -/
def NumIs (P : Bytes → Prop) : V → Prop
  | .num src _ => src ≠ [] ∧ P src
  | _ => True

theorem shows_nums_of {E : Env} {P : Bytes → Prop} {o : Opt} {ord : List Step → List Ent → List Ent → Prop} {l : List Step} {v : V} {j : J}
    (h : Shows E o ord l v j) (hk : Her KeysNodup v) (hp : Her (NumIs P) v) : j.AllNums P := by
  induction h with
  | null l => trivial
  | bool l b => trivial
  | str l s d hc => trivial
  | num l src n hs => exact (her_self hp).2
  | spec l src n s j hs _ =>
    have := (her_self hp).1
    simp [special, this] at hs
  | arr l xs js hl _ ih =>
    refine allNumsL_of _ fun i j hj => ?_
    have hi : i < xs.length := by have := (List.getElem?_eq_some_iff.1 hj).1; omega
    have hkid : Kid (.arr xs) xs[i] := List.getElem_mem hi
    exact ih i xs[i] j (List.getElem?_eq_getElem hi) hj (her_kid hk hk hkid) (her_kid hk hp hkid)
  | obj l n kvs low es ms hperm _ hlen hkeys _ ih =>
    refine allNumsM_of _ fun i m hm => ?_
    have hi : i < (shown o es).length := by have := (List.getElem?_eq_some_iff.1 hm).1; omega
    have hmem : (shown o es)[i] ∈ kvs := by
      have hsub : ∀ e, e ∈ shown o es → e ∈ es := fun e he => by
        unfold shown at he
        split at he
        · exact (List.mem_filter.1 he).1
        · exact he
      exact hperm.mem_iff.1 (hsub _ (List.getElem_mem hi))
    have hkid : Kid (.obj n kvs low) (shown o es)[i].v := ⟨_, hmem, rfl⟩
    exact ih i _ m (List.getElem?_eq_getElem hi) hm (her_kid hk hk hkid) (her_kid hk hp hkid)

theorem shows_nums {E : Env} {pf : Bytes → Option (BitVec 64)} {o : Opt} {ord : List Step → List Ent → List Ent → Prop} {l : List Step} {v : V} {j : J}
    (h : Shows E o ord l v j) (hk : Her KeysNodup v) (hp : Her (Exportable pf) v) : j.AllNums fun t => pf t ≠ none :=
  shows_nums_of h hk fun l c hc => by
    have := hp l c hc
    cases c <;> first | trivial | exact ⟨jnum_ne_nil this.1, this.2⟩

/-! nesting -/

theorem depthL_get : ∀ {js : List J} {i : Nat} {j : J}, js[i]? = some j → j.depth ≤ depthL js
  | [], _, _, h => by simp at h
  | x :: js, 0, j, h => by simp at h; subst h; unfold depthL; omega
  | x :: js, i + 1, j, h => by
    have := depthL_get (js := js) (i := i) (j := j) (by simpa using h)
    unfold depthL; omega

theorem depthM_get : ∀ {ms : List Mem} {i : Nat} {m : Mem}, ms[i]? = some m → m.v.depth ≤ depthM ms
  | [], _, _, h => by simp at h
  | ⟨k, v⟩ :: ms, 0, m, h => by simp at h; subst h; unfold depthM; simp only [Mem.v]; omega
  | ⟨k, v⟩ :: ms, i + 1, m, h => by
    have := depthM_get (ms := ms) (i := i) (m := m) (by simpa using h)
    unfold depthM; omega

theorem depthL_le {n : Nat} : ∀ (js : List J), (∀ (i : Nat) j, js[i]? = some j → j.depth ≤ n) → depthL js ≤ n
  | [], _ => by simp [depthL]
  | x :: js, h => by
    have h1 := h 0 x rfl
    have h2 := depthL_le js fun i j hj => h (i + 1) j hj
    unfold depthL; omega

theorem depthM_le {n : Nat} : ∀ (ms : List Mem), (∀ (i : Nat) m, ms[i]? = some m → m.v.depth ≤ n) → depthM ms ≤ n
  | [], _ => by simp [depthM]
  | ⟨k, v⟩ :: ms, h => by
    have h1 := h 0 ⟨k, v⟩ rfl
    have h2 := depthM_le ms fun i m hm => h (i + 1) m hm
    simp only [Mem.v] at h1
    unfold depthM; omega

theorem nests_child {n : Nat} {v c : V} {s : Step} (h : Nests (n + 1) v) (hc : v.child s = some c) : Nests n c := fun l d hd hs => by
  have := h (s :: l) d (by simp only [V.at, hc]; exact hd) hs
  simp at this; exact this

theorem replace_depth {E : Env} {o : Opt} {s : Special} {j : J} (h : Replace E o s (.inl j)) : j.depth = 0 := by
  generalize hx : (Sum.inl j : J ⊕ Err) = x at h
  cases h <;> cases hx <;> rfl

theorem shown_mem {o : Opt} {es : List Ent} {e : Ent} (h : e ∈ shown o es) : e ∈ es := by
  unfold shown at h
  split at h
  · exact (List.mem_filter.1 h).1
  · exact h

/-- the document does not nest deeper than the value -/
theorem shows_depth_le {E : Env} {o : Opt} {ord : List Step → List Ent → List Ent → Prop} {l : List Step} {v : V} {j : J} {n : Nat}
    (h : Shows E o ord l v j) (hk : Her KeysNodup v) (hn : Nests n v) : j.depth ≤ n := by
  induction h generalizing n with
  | null l => simp [J.depth]
  | bool l b => simp [J.depth]
  | str l s d hc => simp [J.depth]
  | num l src m hs => simp [J.depth]
  | spec l src m s j hs hr => rw [replace_depth hr]; omega
  | arr l xs js hl _ ih =>
    have h0 := hn [] _ rfl (by simp [IsScalar])
    obtain ⟨m, rfl⟩ : ∃ m, n = m + 1 := ⟨n - 1, by simp at h0; omega⟩
    have : depthL js ≤ m := depthL_le js fun i j hj => by
      have hi : i < xs.length := by have := (List.getElem?_eq_some_iff.1 hj).1; omega
      have hkid : Kid (.arr xs) xs[i] := List.getElem_mem hi
      exact ih i xs[i] j (List.getElem?_eq_getElem hi) hj (her_kid hk hk hkid) (nests_child (s := .idx i) hn (by simp [V.child, List.getElem?_eq_getElem hi]))
    unfold J.depth; omega
  | obj l n' kvs low es ms hperm _ hlen hkeys _ ih =>
    have h0 := hn [] _ rfl (by simp [IsScalar])
    obtain ⟨m, rfl⟩ : ∃ m, n = m + 1 := ⟨n - 1, by simp at h0; omega⟩
    have : depthM ms ≤ m := depthM_le ms fun i x hx => by
      have hi : i < (shown o es).length := by have := (List.getElem?_eq_some_iff.1 hx).1; omega
      have hmem : (shown o es)[i] ∈ kvs := hperm.mem_iff.1 (shown_mem (List.getElem_mem hi))
      have hkid : Kid (.obj n' kvs low) (shown o es)[i].v := ⟨_, hmem, rfl⟩
      obtain ⟨s, hs⟩ := kid_child (her_self hk) hkid
      exact ih i _ x (List.getElem?_eq_getElem hi) hx (her_kid hk hk hkid) (nests_child hn hs)
    unfold J.depth; omega

/-- nor less deep, if nothing is left out -/
theorem shows_depth_ge {E : Env} {o : Opt} {ord : List Step → List Ent → List Ent → Prop} : ∀ {l : List Step} {l0 : List Step} {v c : V} {j : J},
    Shows E o ord l0 v j → Her (NothingOmitted o) v → v.at l = some c → ¬ IsScalar c → l.length < j.depth
  | [], l0, v, c, j, h, _, hc, hs => by
    simp only [V.at, Option.some.injEq] at hc
    subst hc
    cases h <;> first | exact absurd trivial hs | (simp [J.depth])
  | s :: l, l0, v, c, j, h, hn, hc, hs => by
    have hch : ∃ w, v.child s = some w ∧ w.at l = some c := by
      simp only [V.at] at hc
      cases hv : v.child s with
      | none => rw [hv] at hc; cases hc
      | some w => rw [hv] at hc; exact ⟨w, rfl, hc⟩
    obtain ⟨w, hw, hc'⟩ := hch
    have hnw := (her_iff.1 hn).2 s w hw
    cases h with
    | arr _ xs js hl hx =>
      cases s with
      | key k => simp [V.child] at hw
      | idx i =>
        have hw : xs[i]? = some w := by simpa [V.child] using hw
        have hi : i < js.length := by have := (List.getElem?_eq_some_iff.1 hw).1; omega
        have := shows_depth_ge (hx i w js[i] hw (List.getElem?_eq_getElem hi)) hnw hc' hs
        have h2 := depthL_get (js := js) (List.getElem?_eq_getElem hi)
        unfold J.depth; simp only [List.length_cons]; omega
    | obj _ n kvs low es ms hperm _ hlen hkeys hx =>
      cases s with
      | idx i => simp [V.child] at hw
      | key k =>
        have hw : ∃ e, lookup k kvs = some e ∧ e.v = w := by
          simp only [V.child] at hw
          cases hk : lookup k kvs with
          | none => rw [hk] at hw; cases hw
          | some e => rw [hk] at hw; exact ⟨e, rfl, by simpa using hw⟩
        obtain ⟨e, he, rfl⟩ := hw
        obtain ⟨-, hmem⟩ := lookup_some_key he
        have hsh : e ∈ shown o es := by
          unfold shown
          split
          · rename_i ho
            exact List.mem_filter.2 ⟨hperm.mem_iff.2 hmem, by rw [her_self hn ho e hmem]; rfl⟩
          · exact hperm.mem_iff.2 hmem
        obtain ⟨i, hi⟩ := List.mem_iff_getElem?.1 hsh
        have hi' : i < ms.length := by have := (List.getElem?_eq_some_iff.1 hi).1; omega
        have := shows_depth_ge (hx i e ms[i] hi (List.getElem?_eq_getElem hi')) hnw hc' hs
        have h2 := depthM_get (ms := ms) (List.getElem?_eq_getElem hi')
        unfold J.depth; simp only [List.length_cons]; omega
    | _ => cases s <;> simp [V.child] at hw

theorem shows_exported {E : Env} {pf : Bytes → Option (BitVec 64)} {o : Opt} {ord : List Step → List Ent → List Ent → Prop} {l : List Step} {v : V} {j : J}
    (h : Shows E o ord l v j) {g : AnyVal} (hk : Her KeysNodup v) (hp : Her (Exportable pf) v) (hn : Her (NothingOmitted o) v)
    (hd : AnyOf pf j g) : Exported pf v g := by
  induction h generalizing g with
  | null l => cases hd; exact .null
  | bool l b => cases hd; exact .bool b
  | str l s d hc =>
    cases hd
    rw [cleaned_valid (her_self hp).1 hc]
    exact .str s
  | num l src n hs => cases hd with | num _ f hf => exact .num _ _ f hf
  | spec l src n s j hs _ =>
    have := jnum_ne_nil (her_self hp).1
    simp [special, this] at hs
  | arr l xs js hl _ ih =>
    cases hd with
    | arr _ gs hl' hd =>
      refine .arr _ _ (by omega) fun i x y hx hy => ?_
      have hi : i < js.length := by have := (List.getElem?_eq_some_iff.1 hx).1; omega
      have hkid : Kid (.arr xs) x := List.mem_of_getElem? hx
      exact ih i x js[i] hx (List.getElem?_eq_getElem hi) (her_kid hk hk hkid) (her_kid hk hp hkid) (her_kid hk hn hkid) (hd i _ y (List.getElem?_eq_getElem hi) hy)
  | obj l n kvs low es ms hperm _ hlen hkeys _ ih =>
    have hsh : shown o es = es := by
      cases ho : o.omitNull with
      | false => simp [shown, ho]
      | true =>
        have h1 := (her_self hn : o.omitNull = true → ∀ e ∈ kvs, isNullV e.v = false) ho
        simp only [shown, ho, if_true]
        rw [List.filter_eq_self]
        intro e he
        rw [h1 e (hperm.mem_iff.1 he)]; rfl
    rw [hsh] at hlen hkeys ih
    have hnk : (kvs.map Ent.key).Nodup := her_self hk
    have hne : (es.map Ent.key).Nodup := (hperm.map _).nodup_iff.2 hnk
    have hke : ∀ (i : Nat) e m, es[i]? = some e → ms[i]? = some m → m.key = e.key := fun i e m h1 h2 =>
      cleaned_valid ((her_self hp : ∀ e ∈ kvs, ValidUTF8 e.key ∧ 0xB ∉ e.key) e (hperm.mem_iff.1 (List.mem_of_getElem? h1))).1 (hkeys i e m h1 h2)
    have hmk : ms.map Mem.key = es.map Ent.key := by
      apply List.ext_getElem?
      intro i
      rw [List.getElem?_map, List.getElem?_map]
      cases h1 : es[i]? with
      | none =>
        have : ms[i]? = none := by rw [List.getElem?_eq_none_iff] at h1 ⊢; omega
        rw [this]; rfl
      | some e =>
        have : i < ms.length := by have := (List.getElem?_eq_some_iff.1 h1).1; omega
        have h2 := List.getElem?_eq_getElem this
        rw [h2]
        exact congrArg some (hke i e _ h1 h2)
    have hmn : (ms.map Mem.key).Nodup := by rw [hmk]; exact hne
    cases hd with
    | obj _ gs hgn hsome hany =>
      have hlast : ∀ k, (lastOf k ms).isSome = true ↔ k ∈ keys kvs := fun k => by
        have h1 : k ∈ keys kvs ↔ k ∈ ms.map Mem.key := by rw [hmk]; exact ((hperm.map Ent.key).mem_iff (a := k)).symm
        rw [h1]
        cases hl : lastOf k ms with
        | none =>
          have := lastOf_none.1 hl
          simp only [Option.isSome_none, Bool.false_eq_true, false_iff, List.mem_map, not_exists, not_and]
          exact fun m hm => this m hm
        | some j =>
          obtain ⟨m, hm, rfl, _⟩ := lastOf_some hl
          simp only [Option.isSome_some, true_iff]
          exact List.mem_map_of_mem hm
      refine .obj n kvs low gs hgn (fun k => ?_) fun k c g hc hg => ?_
      · rw [← hsome k]
        have := hlast k
        rw [← members_some (n := n) (low := low)] at this
        exact (Bool.eq_iff_iff.2 this).symm
      · rw [members_eq] at hc
        obtain ⟨e, he, rfl⟩ := Option.map_eq_some_iff.1 hc
        obtain ⟨rfl, hmem⟩ := lookup_some_key he
        obtain ⟨i, hi⟩ := List.getElem?_of_mem (hperm.mem_iff.2 hmem)
        have hil : i < ms.length := by have := (List.getElem?_eq_some_iff.1 hi).1; omega
        have hm := List.getElem?_eq_getElem hil
        have hl := lastOf_nodup hmn (List.mem_of_getElem? hm)
        rw [hke i e _ hi hm] at hl
        have hkid : Kid (.obj n kvs low) e.v := ⟨e, hmem, rfl⟩
        exact ih i e _ hi hm (her_kid hk hk hkid) (her_kid hk hp hkid) (her_kid hk hn hkid) (hany e.key _ g hl hg)

end JV
