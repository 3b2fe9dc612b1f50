import Verif.Proofs.Compare
import Verif.Proofs.Layout
/-!
What Marshal wrote and Unmarshal read is Equal to the value.
-/
namespace JV
open Spec

variable {E : Env}

theorem portable_solid {v : V} (h : Her (Portable E) v) : Her Solid v := fun l c hc => by
  have := h l c hc
  cases c <;> first | exact this.elim | simp [Solid]

theorem reads_ne_nil {t : Bytes} (h : Reads E t) : t ≠ [] := by
  rintro rfl
  obtain ⟨n, h⟩ := h
  simp [unmarshal] at h

theorem portable_printable {o : Opt} {v : V} (h : Her (Portable E) v) : Her (Printable E o (Reads E) (fun _ => True)) v := fun l c hc => by
  have := h l c hc
  cases c with
  | num src n =>
    have hs : special src n = none := by simp [special, reads_ne_nil this]
    exact ⟨fun _ => this, fun s h => by rw [hs] at h; cases h⟩
  | nilp => exact this.elim
  | notExist => exact this.elim
  | obj => intro _ _; trivial
  | _ => trivial

theorem lastOf_some {k : Bytes} {j : J} : ∀ {ms : List Mem}, lastOf k ms = some j → ∃ m ∈ ms, m.key = k ∧ m.v = j
  | [], h => by cases h
  | ⟨k', v⟩ :: ms, h => by
    unfold lastOf at h
    cases hl : lastOf k ms with
    | some w =>
      rw [hl] at h
      obtain ⟨m, hm, h1, h2⟩ := lastOf_some hl
      cases h
      exact ⟨m, by simp [hm], h1, h2⟩
    | none =>
      rw [hl] at h
      simp only at h
      split at h
      · exact ⟨⟨k', v⟩, by simp, by assumption, Option.some.inj h⟩
      · cases h

theorem lastOf_nodup {ms : List Mem} (hn : (ms.map Mem.key).Nodup) {m : Mem} (hm : m ∈ ms) : lastOf m.key ms = some m.v := by
  cases hl : lastOf m.key ms with
  | none => exact absurd rfl (lastOf_none.1 hl m hm)
  | some j =>
    obtain ⟨m', hm', h1, h2⟩ := lastOf_some hl
    have : m' = m := by
      obtain ⟨i, hi, rfl⟩ := List.getElem_of_mem hm'
      obtain ⟨i', hi', rfl⟩ := List.getElem_of_mem hm
      by_cases hii : i = i'
      · subst hii; rfl
      · exfalso
        have := (List.nodup_iff_pairwise_ne.1 hn)
        rw [List.pairwise_iff_getElem] at this
        rcases Nat.lt_or_gt_of_ne hii with h | h
        · exact this i i' (by simpa using hi) (by simpa using hi') h (by simpa using h1)
        · exact this i' i (by simpa using hi') (by simpa using hi) h (by simpa using h1.symm)
    rw [← h2, this]

theorem shows_equal {o : Opt} {ord : List Step → List Ent → List Ent → Prop} {N : Bytes → Num → Prop} {val : Bytes → Rat} (ho : o.omitNull = false)
    {l : List Step} {v : V} {j : J} (h : Shows E o ord l v j) {w : V} (hk : Her KeysNodup v) (hp : Her (Portable E) v) (hd : Denotes E N j w) : EqualTo val v w := by
  induction h generalizing w with
  | null l => cases hd; exact .null
  | bool l b => cases hd; exact .bool b
  | str l s d hc =>
    cases hd
    rw [cleaned_valid (her_self hp) hc]
    exact .str s
  | num l src n hs => cases hd; exact .num _ _ _ _ rfl
  | spec l src n s j hs _ =>
    have := reads_ne_nil (her_self hp : Reads E src)
    simp [special, this] at hs
  | arr l xs js hl _ ih =>
    cases hd with
    | arr _ vs hl' hd =>
      refine .arr _ _ (by omega) fun i x y hx hy => ?_
      have hi : i < js.length := by have := (List.getElem?_eq_some_iff.1 hx).1; omega
      have hkid : Kid (.arr xs) x := List.mem_of_getElem? hx
      exact ih i x js[i] hx (List.getElem?_eq_getElem hi) (her_kid hk hk hkid) (her_kid hk hp hkid) (hd i _ y (List.getElem?_eq_getElem hi) hy)
  | obj l n kvs low es ms hperm _ hlen hkeys _ ih =>
    have hsh : shown o es = es := by simp [shown, ho]
    rw [hsh] at hlen hkeys ih
    have hnk : (kvs.map Ent.key).Nodup := her_self hk
    have hne : (es.map Ent.key).Nodup := (hperm.map _).nodup_iff.2 hnk
    have hke : ∀ (i : Nat) e m, es[i]? = some e → ms[i]? = some m → m.key = e.key := fun i e m h1 h2 =>
      cleaned_valid ((her_self hp : ∀ e ∈ kvs, ValidUTF8 e.key) e (hperm.mem_iff.1 (List.mem_of_getElem? h1))) (hkeys i e m h1 h2)
    have hmk : ms.map Mem.key = es.map Ent.key := by
      apply List.ext_getElem?
      intro i
      rw [List.getElem?_map, List.getElem?_map]
      cases h1 : es[i]? with
      | none =>
        have : ms[i]? = none := by rw [List.getElem?_eq_none_iff] at h1 ⊢; omega
        rw [this]; rfl
      | some e =>
        have : i < ms.length := by have := (List.getElem?_eq_some_iff.1 h1).1; omega
        have h2 := List.getElem?_eq_getElem this
        rw [h2]
        exact congrArg some (hke i e _ h1 h2)
    have hmn : (ms.map Mem.key).Nodup := by rw [hmk]; exact hne
    generalize hj : J.obj ms = j at hd
    cases hd with
    | obj ms' w child ks hobj hno hyes hden _ _ _ =>
      cases hj
      have hio : ∃ n' kvs' low', w = .obj n' kvs' low' := by
        cases w with
        | obj n' kvs' low' => exact ⟨_, _, _, rfl⟩
        | nilp => cases hobj
        | _ => simp [isObject, onV] at hobj
      obtain ⟨n', kvs', low', rfl⟩ := hio
      have hgm := fun k => get_members E (v := .obj n' kvs' low') ⟨_, _, _, rfl⟩ k
      -- the members read
      have hmem : ∀ k, members (.obj n' kvs' low') k = (lastOf k ms).map fun _ => child k := by
        intro k
        cases hl : lastOf k ms with
        | none =>
          have := hno k hl
          rw [hgm] at this
          cases hm : members (.obj n' kvs' low') k with
          | none => rfl
          | some c => rw [hm] at this; cases this
        | some j =>
          have := hyes k j hl
          rw [hgm] at this
          cases hm : members (.obj n' kvs' low') k with
          | none => rw [hm] at this; cases this
          | some c => rw [hm] at this; cases this; rfl
      refine .obj _ _ _ _ _ _ (fun k => ?_) fun k c c' h1 h2 => ?_
      · rw [hmem, Option.isSome_map, Bool.eq_iff_iff, members_some]
        have e1 : (lastOf k ms).isSome = true ↔ k ∈ ms.map Mem.key := by
          cases hl : lastOf k ms with
          | none =>
            have := lastOf_none.1 hl
            simp only [Option.isSome_none, Bool.false_eq_true, false_iff, List.mem_map, not_exists, not_and]
            exact this
          | some j =>
            obtain ⟨m, hm, h1, -⟩ := lastOf_some hl
            simp only [Option.isSome_some, List.mem_map, true_iff]
            exact ⟨m, hm, h1⟩
        rw [e1, hmk]
        exact ((hperm.map Ent.key).mem_iff).symm
      · rw [members_eq, Option.map_eq_some_iff] at h1
        obtain ⟨e, h1, rfl⟩ := h1
        obtain ⟨rfl, he⟩ := lookup_some_key h1
        obtain ⟨i, hi, hie⟩ := List.getElem_of_mem (hperm.mem_iff.2 he)
        have hi1 : es[i]? = some e := by rw [List.getElem?_eq_getElem hi, hie]
        have hi2 := List.getElem?_eq_getElem (show i < ms.length by omega)
        have hkey := hke i e _ hi1 hi2
        have hlast := lastOf_nodup hmn (List.getElem_mem (show i < ms.length by omega))
        rw [hkey] at hlast
        rw [hmem, hlast] at h2
        cases h2
        have hkid : Kid (.obj n kvs low) e.v := ⟨e, he, rfl⟩
        exact ih i e _ hi1 hi2 (her_kid hk hk hkid) (her_kid hk hp hkid) (hden _ _ hlast)
    | _ => cases hj

theorem keysNodup_prune {v : V} (h : Her KeysNodup v) : Her KeysNodup (prune v) := by
  induction v using kid_ind with
  | step v ih =>
    cases v with
    | arr xs =>
      refine her_of_kids trivial fun c hc => ?_
      obtain ⟨i, hi, rfl⟩ := List.getElem_of_mem (show c ∈ pruneL xs from hc)
      have h1 : (pruneL xs)[i]? = some (pruneL xs)[i] := List.getElem?_eq_getElem hi
      rw [pruneL_get, Option.map_eq_some_iff] at h1
      obtain ⟨x, hx, hx'⟩ := h1
      rw [← hx']
      exact ih x (List.mem_of_getElem? hx) (her_kid h h (List.mem_of_getElem? hx))
    | obj n kvs low =>
      refine her_of_kids ?_ fun c hc => ?_
      · simp only [prune, KeysNodup]
        rw [pruneM_eq, List.map_map]
        exact List.Nodup.sublist ((List.filter_sublist (p := fun e : Ent => !isNullV e.v)).map Ent.key) (her_self h : (kvs.map Ent.key).Nodup)
      · obtain ⟨e, he, rfl⟩ := (show ∃ e ∈ pruneM kvs, e.v = c from hc)
        rw [pruneM_eq] at he
        obtain ⟨e', he', rfl⟩ := List.mem_map.1 he
        have hm := (List.mem_filter.1 he').1
        exact ih e'.v ⟨e', hm, rfl⟩ (her_kid h h ⟨e', hm, rfl⟩)
    | _ => exact her_leaf (by simp [prune, KeysNodup]) trivial

theorem portable_prune {v : V} (hk : Her KeysNodup v) (h : Her (Portable E) v) : Her (Portable E) (prune v) := by
  induction v using kid_ind with
  | step v ih =>
    have h0 := her_self h
    cases v with
    | arr xs =>
      refine her_of_kids trivial fun c hc => ?_
      obtain ⟨i, hi, rfl⟩ := List.getElem_of_mem (show c ∈ pruneL xs from hc)
      have h1 : (pruneL xs)[i]? = some (pruneL xs)[i] := List.getElem?_eq_getElem hi
      rw [pruneL_get, Option.map_eq_some_iff] at h1
      obtain ⟨x, hx, hx'⟩ := h1
      rw [← hx']
      exact ih x (List.mem_of_getElem? hx) (her_kid hk hk (List.mem_of_getElem? hx)) (her_kid hk h (List.mem_of_getElem? hx))
    | obj n kvs low =>
      refine her_of_kids ?_ fun c hc => ?_
      · intro e he
        rw [pruneM_eq] at he
        obtain ⟨e', he', rfl⟩ := List.mem_map.1 he
        exact h0 e' (List.mem_filter.1 he').1
      · obtain ⟨e, he, rfl⟩ := (show ∃ e ∈ pruneM kvs, e.v = c from hc)
        rw [pruneM_eq] at he
        obtain ⟨e', he', rfl⟩ := List.mem_map.1 he
        have hm := (List.mem_filter.1 he').1
        exact ih e'.v ⟨e', hm, rfl⟩ (her_kid hk hk ⟨e', hm, rfl⟩) (her_kid hk h ⟨e', hm, rfl⟩)
    | nilp => exact h0.elim
    | notExist => exact h0.elim
    | _ => exact her_leaf (by simpa [prune] using h0) trivial

/-- the numbers of a value that stands for a document -/
theorem denotes_nums {N : Bytes → Num → Prop} {j : J} {w : V} (h : Denotes E N j w) : Her (fun c => ∀ t n, c = .num t n → N t n) w := by
  induction h with
  | num t n hn => exact her_leaf (by rintro t' n' h; cases h; exact hn) trivial
  | arr xs vs hl _ ih =>
    refine her_of_kids (by rintro t' n' h; cases h) fun c hc => ?_
    obtain ⟨i, hi, rfl⟩ := List.getElem_of_mem (show c ∈ vs from hc)
    exact ih i xs[i] _ (List.getElem?_eq_getElem (by omega)) (List.getElem?_eq_getElem hi)
  | obj ms v child ks hobj hno hyes _ _ _ _ ih =>
    have hio : ∃ n' kvs' low', v = .obj n' kvs' low' := by
      cases v with
      | obj n' kvs' low' => exact ⟨_, _, _, rfl⟩
      | nilp => cases hobj
      | _ => simp [isObject, onV] at hobj
    obtain ⟨n', kvs', low', rfl⟩ := hio
    refine her_iff.2 ⟨(by rintro t' n' h; cases h), fun s c hc => ?_⟩
    cases s with
    | idx i => cases hc
    | key k =>
      have hg := get_members E (v := .obj n' kvs' low') ⟨_, _, _, rfl⟩ k
      rw [show members (.obj n' kvs' low') k = some c from hc] at hg
      cases hl : lastOf k ms with
      | none => rw [hno k hl] at hg; cases hg
      | some j =>
        rw [hyes k j hl] at hg
        cases hg
        exact ih k j hl
  | _ => exact her_leaf (by rintro t' n' h; cases h) trivial

theorem unmarshal_nums {s : Bytes} {v : V} (h : unmarshal E s = .ok v) : Her (fun c => ∀ t n, c = .num t n → Reads E t) v := by
  obtain ⟨j, ⟨b1, t, b2, -, -, hv, -⟩, rfl⟩ := (unmarshal_iff E s v).1 h
  have := denotes_nums (E := E) (toV_denotes E (fun t n => unmarshal E t = .ok (.num t n)) j (AllNums_mono (fun t ht => unmarshal_numTok ht) j (lval_nums hv)))
  exact fun l c hc t n he => ⟨n, this l c hc t n he⟩

end JV
