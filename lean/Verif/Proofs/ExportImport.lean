import Verif.Spec.ExportImport
import Verif.Proofs.Export
import Verif.Proofs.Import
import Verif.Proofs.ImportObj
import Verif.Proofs.Compare
import Verif.Proofs.IeeeShort
/-!
Import of data of type `interface{}`.
-/
namespace JV
open Spec

variable {E : Env} {S : SortFn} {F : FloatText}

theorem fromAny_uninit {F : BitVec 64 → Bytes} {g : AnyVal} {w : V} (h : FromAny F g w) : w.uninit = false := by cases h <;> rfl

theorem ext_keep {ex : Ext} (h : ex.omit = false) : ({ ex with omitempty := false } : Ext).omit = false := by
  revert h
  unfold Ext.omit
  cases ex.ignoreOmitempty <;> cases ex.omitempty <;> cases ex.isPrivate <;> simp

theorem anyFind_mem {k : Bytes} {g : AnyVal} : ∀ {kvs : List (Bytes × AnyVal)}, anyFind k kvs = some g → (k, g) ∈ kvs
  | [], h => by cases h
  | (k', g') :: kvs, h => by
    rw [anyFind] at h
    split at h
    · rename_i hk
      cases h
      subst hk
      exact List.mem_cons_self
    · exact List.mem_cons_of_mem _ (anyFind_mem h)

theorem anyFind_of_mem {k : Bytes} {g : AnyVal} : ∀ {kvs : List (Bytes × AnyVal)}, (kvs.map Prod.fst).Nodup → (k, g) ∈ kvs → anyFind k kvs = some g
  | [], _, h => by cases h
  | (k', g') :: kvs, hn, h => by
    rw [List.map_cons, List.nodup_cons] at hn
    rw [anyFind]
    rcases List.mem_cons.1 h with h | h
    · cases h; rw [if_pos rfl]
    · rw [if_neg]
      · exact anyFind_of_mem hn.2 h
      · rintro rfl
        exact hn.1 (List.mem_map.2 ⟨_, h, rfl⟩)

/-- entries of a map and what became of them -/
inductive AnyRel (F : BitVec 64 → Bytes) : List (Bytes × AnyVal) → List (Bytes × V) → Prop
  | nil : AnyRel F [] []
  | cons {k g c kvs L} : FromAny F g c → AnyRel F kvs L → AnyRel F ((k, g) :: kvs) ((k, c) :: L)

theorem anyRel_keys {F : BitVec 64 → Bytes} {kvs : List (Bytes × AnyVal)} {L : List (Bytes × V)} (h : AnyRel F kvs L) : L.map Prod.fst = kvs.map Prod.fst := by
  induction h with
  | nil => rfl
  | cons _ _ ih => simp [ih]

theorem anyRel_mem {F : BitVec 64 → Bytes} {kvs : List (Bytes × AnyVal)} {L : List (Bytes × V)} (h : AnyRel F kvs L) :
    (∀ k g, (k, g) ∈ kvs → ∃ c, (k, c) ∈ L ∧ FromAny F g c) ∧ ∀ k c, (k, c) ∈ L → ∃ g, (k, g) ∈ kvs ∧ FromAny F g c := by
  induction h with
  | nil => exact ⟨fun _ _ h => (nomatch h), fun _ _ h => (nomatch h)⟩
  | cons h1 _ ih =>
    constructor
    · intro k g h
      rcases List.mem_cons.1 h with h | h
      · cases h; exact ⟨_, List.mem_cons_self, h1⟩
      · obtain ⟨c, h2, h3⟩ := ih.1 k g h
        exact ⟨c, List.mem_cons_of_mem _ h2, h3⟩
    · intro k c h
      rcases List.mem_cons.1 h with h | h
      · cases h; exact ⟨_, List.mem_cons_self, h1⟩
      · obtain ⟨g, h2, h3⟩ := ih.2 k c h
        exact ⟨g, List.mem_cons_of_mem _ h2, h3⟩

theorem objs_fromAny {F : BitVec 64 → Bytes} {kvs : List (Bytes × AnyVal)} {L : List (Bytes × V)} {w : V} (hn : (kvs.map Prod.fst).Nodup) (h : AnyRel F kvs L) (hw : Objs w L) :
    FromAny F (.map kvs) w := by
  obtain ⟨n, es, rfl, hp, hes⟩ := hw
  have hm : ∀ k c, members (.obj n es none) k = some c ↔ (k, c) ∈ L := by
    intro k c
    rw [members_eq, ← hp.mem_iff, List.mem_map]
    constructor
    · intro h
      obtain ⟨e, he, rfl⟩ := Option.map_eq_some_iff.1 h
      obtain ⟨h1, h2⟩ := lookup_some_key he
      exact ⟨e, h2, by rw [h1]⟩
    · rintro ⟨e, he, h⟩
      cases h
      rw [lookup_mem_nodup hes he]
      rfl
  obtain ⟨h1, h2⟩ := anyRel_mem h
  refine .map kvs n es none hes (fun k => ?_) (fun k g c hg hc => ?_)
  · rw [Bool.eq_iff_iff, Option.isSome_iff_exists, Option.isSome_iff_exists]
    constructor
    · rintro ⟨g, hg⟩
      obtain ⟨c, hc, -⟩ := h1 k g (anyFind_mem hg)
      exact ⟨c, (hm k c).2 hc⟩
    · rintro ⟨c, hc⟩
      obtain ⟨g, hg, -⟩ := h2 k c ((hm k c).1 hc)
      exact ⟨g, anyFind_of_mem hn hg⟩
  · obtain ⟨g', hg', h3⟩ := h2 k c ((hm k c).1 hc)
    rw [anyFind_of_mem hn hg'] at hg
    cases hg
    exact h3

mutual
theorem import_any {P : Bytes → Prop} : ∀ (g : AnyVal) (ex : Ext) (ro : RO), ex.omit = false → ex.toString = false → AnyOK P g →
    ∃ w, importVal E S F ex ro (anyGo g) = .ok w ∧ FromAny (F false) g w
  | .nil, ex, ro, h1, h2, _ => ⟨_, by simp only [anyGo, importVal, h1]; rfl, .nil⟩
  | .bool b, ex, ro, h1, h2, _ => ⟨.bool b, by simp only [anyGo, importVal, h1, h2]; simp, .bool b⟩
  | .flt f, ex, ro, h1, h2, h => by
    have hv : isValidFloat f = true := by
      cases h with
      | flt _ h => exact finite_valid ((finite_iff f).2 h)
    refine ⟨newFloat E F false f, by simp only [anyGo, importVal, h1, h2]; simp, ?_⟩
    unfold newFloat newFloat64f
    rw [if_pos hv]
    exact .flt f _ rfl
  | .str s, ex, ro, h1, h2, _ => ⟨.str s, by simp only [anyGo, importVal, h1]; simp, .str s⟩
  | .slice gs, ex, ro, h1, h2, h => by
    have h : ∀ g ∈ gs, AnyOK P g := by cases h; assumption
    cases gs with
    | nil => exact ⟨.arr [], by simp only [anyGo, anyGoL, importVal, h1]; rfl, .slice _ _ rfl (fun i g x hg => by simp at hg)⟩
    | cons g gs =>
      obtain ⟨ws, h3, h4, h5⟩ := import_anyL (g :: gs) { ex with omitempty := false } ro.elem [] (ext_keep h1) h2 h
      refine ⟨.arr ws, ?_, .slice _ _ h4 h5⟩
      simp only [anyGo, importVal, anyGoL, List.isEmpty_cons]
      exact h3
  | .map kvs, ex, ro, h1, h2, h => by
    have h : (kvs.map Prod.fst).Nodup ∧ ∀ p ∈ kvs, AnyOK P p.2 := by cases h; constructor <;> assumption
    cases kvs with
    | nil =>
      refine ⟨newObject, by simp only [anyGo, anyGoM, importVal, h1]; rfl, objs_fromAny (L := []) h.1 .nil objs_new⟩
    | cons p kvs =>
      obtain ⟨L, w, h3, h4, h5⟩ := import_anyM (p :: kvs) ex ro.elem newObject [] h1 h2 h.2 objs_new (by simpa using h.1)
      refine ⟨w, ?_, objs_fromAny h.1 h4 h5⟩
      simp only [anyGo, importVal, anyGoM, List.isEmpty_cons]
      exact h3
theorem import_anyL {P : Bytes → Prop} : ∀ (gs : List AnyVal) (ex : Ext) (ro : RO) (acc : List V), ex.omit = false → ex.toString = false → (∀ g ∈ gs, AnyOK P g) →
    ∃ ws, importList E S F ex ro (.arr acc) (anyGoL gs) = .ok (.arr (acc ++ ws)) ∧ gs.length = ws.length ∧
      ∀ (i : Nat) g x, gs[i]? = some g → ws[i]? = some x → FromAny (F false) g x
  | [], ex, ro, acc, _, _, _ => ⟨[], by simp [anyGoL, importList], rfl, fun i g x h => by simp at h⟩
  | g :: gs, ex, ro, acc, h1, h2, h => by
    obtain ⟨w, h3, h4⟩ := import_any g ex ro.elem h1 h2 (h g (by simp))
    obtain ⟨ws, h5, h6, h7⟩ := import_anyL gs ex ro (acc ++ [w]) h1 h2 (fun g' hg => h g' (by simp [hg]))
    refine ⟨w :: ws, ?_, by simp [h6], ?_⟩
    · simp only [anyGoL, importList, importVal, h3, mustAppend_arr]
      rw [h5]
      simp
    · intro i g' x hg hx
      cases i with
      | zero => simp at hg hx; subst hg hx; exact h4
      | succ i => exact h7 i g' x (by simpa using hg) (by simpa using hx)
theorem import_anyM {P : Bytes → Prop} : ∀ (kvs : List (Bytes × AnyVal)) (ex : Ext) (ro : RO) (res : V) (L : List (Bytes × V)), ex.omit = false → ex.toString = false →
    (∀ p ∈ kvs, AnyOK P p.2) → Objs res L → (L.map Prod.fst ++ kvs.map Prod.fst).Nodup →
    ∃ L' w, importPairs E S F ex ro res (anyGoM kvs) = .ok w ∧ AnyRel (F false) kvs L' ∧ Objs w (L ++ L')
  | [], ex, ro, res, L, _, _, _, hr, _ => ⟨[], res, by simp only [anyGoM, importPairs], .nil, by simpa using hr⟩
  | (k, g) :: kvs, ex, ro, res, L, h1, h2, h, hr, hn => by
    obtain ⟨c, h3, h4⟩ := import_any g ex ro.elem h1 h2 (h (k, g) (by simp))
    have hk : k ∉ L.map Prod.fst := by
      rw [List.nodup_append] at hn
      intro hm
      exact hn.2.2 k hm k (by simp) rfl
    obtain ⟨w, h5, h6⟩ := mustSetKey_objs (E := E) hr hk (fromAny_uninit h4)
    obtain ⟨L', w', h7, h8, h9⟩ := import_anyM kvs ex ro w (L ++ [(k, c)]) h1 h2 (fun p hp => h p (by simp [hp])) h6 (by simpa using hn)
    refine ⟨(k, c) :: L', w', ?_, .cons h4 h8, by simpa using h9⟩
    simp only [anyGoM, anyGoP, importPairs, importPair, importVal, h3, GoKey.text]
    show (match mustSetKey E res c k with
      | .ok res => importPairs E S F ex ro res (anyGoM kvs)
      | .err e => .err e
      | .panic => .panic
      | .diverge => .diverge) = _
    rw [h5]
    exact h7
end

/-! ### what the results have in common -/

theorem fromAny_keys {F : BitVec 64 → Bytes} {g : AnyVal} {w : V} (h : FromAny F g w) : Her KeysNodup w := by
  induction h with
  | slice gs xs hl h ih =>
    refine her_of_kids trivial fun c hc => ?_
    have hc : c ∈ xs := hc
    obtain ⟨i, hi⟩ := List.getElem?_of_mem hc
    have hlt : i < gs.length := by rw [hl]; exact (List.getElem?_eq_some_iff.1 hi).1
    exact ih i gs[i] c (List.getElem?_eq_getElem hlt) hi
  | map gs n kvs low hn hk h ih =>
    refine her_of_kids hn fun c hc => ?_
    obtain ⟨e, he, rfl⟩ := hc
    have hm : members (.obj n kvs low) e.key = some e.v := by rw [members_eq, lookup_mem_nodup hn he]; rfl
    have := hk e.key
    rw [hm] at this
    obtain ⟨g, hg⟩ := Option.isSome_iff_exists.1 this
    exact ih e.key g e.v hg hm
  | _ => exact her_leaf trivial trivial

/-- what is exported and imported again is equal if and only if all numbers are -/
theorem exported_equal {pf : Bytes → Option (BitVec 64)} {F : BitVec 64 → Bytes} {val : Bytes → Rat} {v : V} {g : AnyVal} {w : V} (hv : Her KeysNodup v) (h : Exported pf v g)
    (hw : FromAny F g w) : EqualTo val v w ↔ Her (fun c => match c with | .num src _ => ∀ f, pf src = some f → val src = val (F f) | _ => True) v := by
  induction h generalizing w with
  | null => cases hw; exact ⟨fun _ => her_leaf trivial trivial, fun _ => .null⟩
  | bool b => cases hw; exact ⟨fun _ => her_leaf trivial trivial, fun _ => .bool b⟩
  | str s => cases hw; exact ⟨fun _ => her_leaf trivial trivial, fun _ => .str s⟩
  | num src n f hf =>
    cases hw
    constructor
    · intro h
      refine her_leaf ?_ trivial
      intro f' hf'
      rw [hf] at hf'
      cases hf'
      cases h
      assumption
    · exact fun h => .num _ _ _ _ (her_self h f hf)
  | arr xs gs hl h ih =>
    cases hw with
    | slice _ ys hl' h' =>
      constructor
      · intro he
        cases he with
        | arr _ _ hl'' he =>
          refine her_of_kids trivial fun c hc => ?_
          have hc : c ∈ xs := hc
          obtain ⟨i, hi⟩ := List.getElem?_of_mem hc
          have hlt : i < xs.length := (List.getElem?_eq_some_iff.1 hi).1
          have h1 : gs[i]? = some gs[i] := List.getElem?_eq_getElem (by omega)
          have h2 : ys[i]? = some ys[i] := List.getElem?_eq_getElem (by omega)
          exact (ih i c _ hi h1 (her_kid hv hv hc) (h' i _ _ h1 h2)).1 (he i c _ hi h2)
      · intro hh
        refine .arr _ _ (by omega) fun i x y hx hy => ?_
        have hlt : i < xs.length := (List.getElem?_eq_some_iff.1 hx).1
        have h1 : gs[i]? = some gs[i] := List.getElem?_eq_getElem (by omega)
        have hc : Kid (.arr xs) x := List.mem_of_getElem? hx
        exact (ih i x _ hx h1 (her_kid hv hv hc) (h' i _ _ h1 hy)).2 (her_kid hv hh hc)
  | obj n kvs low gs hn hk h ih =>
    cases hw with
    | map _ n' kvs' low' hn' hk' h' =>
      have some_of : ∀ {k c}, members (.obj n kvs low) k = some c → ∃ g, anyFind k gs = some g := fun {k c} hc => by
        have := hk k
        rw [hc] at this
        exact Option.isSome_iff_exists.1 this.symm
      have some_of' : ∀ {k g}, anyFind k gs = some g → ∃ c, members (.obj n' kvs' low') k = some c := fun {k g} hg => by
        have := hk' k
        rw [hg] at this
        exact Option.isSome_iff_exists.1 this.symm
      have kid_of : ∀ {k c}, members (.obj n kvs low) k = some c → Kid (.obj n kvs low) c := fun {k c} hc => by
        rw [members_eq] at hc
        obtain ⟨e, he, rfl⟩ := Option.map_eq_some_iff.1 hc
        exact ⟨e, (lookup_some_key he).2, rfl⟩
      constructor
      · intro he
        cases he with
        | obj _ _ _ _ _ _ he1 he2 =>
          refine her_of_kids trivial fun c hc => ?_
          obtain ⟨e, he, rfl⟩ := id hc
          have hm : members (.obj n kvs low) e.key = some e.v := by rw [members_eq, lookup_mem_nodup (her_self hv) he]; rfl
          obtain ⟨g, hg⟩ := some_of hm
          obtain ⟨c, hc'⟩ := some_of' hg
          exact (ih _ _ _ hm hg (her_kid hv hv hc) (h' _ _ _ hg hc')).1 (he2 _ _ _ hm hc')
      · intro hh
        refine .obj _ _ _ _ _ _ (fun k => (hk k).trans (hk' k)) fun k c c' hc hc' => ?_
        obtain ⟨g, hg⟩ := some_of hc
        exact (ih _ _ _ hc hg (her_kid hv hv (kid_of hc)) (h' _ _ _ hg hc')).2 (her_kid hv hh (kid_of hc))

/-- what is imported and exported again is the same if the texts of the floats are read as the floats -/
theorem fromAny_exported {pf : Bytes → Option (BitVec 64)} {F : BitVec 64 → Bytes} {P : Bytes → Prop} {g g' : AnyVal} {w : V} (hp : ∀ f, magnitude f < double.inf → pf (F f) = some f)
    (hok : AnyOK P g) (hg : FromAny F g w) (h : Exported pf w g') : AnySame g g' := by
  induction hg generalizing g' with
  | nil => cases h; exact .nil
  | bool b => cases h; exact .bool b
  | str s => cases h; exact .str s
  | flt f n hn =>
    cases h with
    | num _ _ f' hf =>
      cases hok with
      | flt _ hf' =>
        rw [hp f hf'] at hf
        cases hf
        exact .flt f
  | slice gs xs hl h' ih =>
    cases h with
    | arr _ gs' hl' h =>
      cases hok with
      | slice _ hok =>
        refine .slice _ _ (by omega) fun i g g' hg hg' => ?_
        have hlt : i < gs.length := (List.getElem?_eq_some_iff.1 hg).1
        have h1 : xs[i]? = some xs[i] := List.getElem?_eq_getElem (by omega)
        exact ih i g _ hg h1 (hok g (List.mem_of_getElem? hg)) (h i _ _ h1 hg')
  | map gs n kvs low hn hk h' ih =>
    cases h with
    | obj _ _ _ gs' hn' hk' h =>
      cases hok with
      | map _ _ _ hok =>
        refine .map _ _ (fun k => (hk k).trans (hk' k)) fun k g g' hg hg' => ?_
        have := hk k
        rw [hg] at this
        obtain ⟨c, hc⟩ := Option.isSome_iff_exists.1 this.symm
        exact ih k g c hg hc (hok (k, g) (anyFind_mem hg)) (h k c g' hc hg')

/-- what is imported can be exported if strings and keys can -/
theorem fromAny_exportable {pf : Bytes → Option (BitVec 64)} {F : BitVec 64 → Bytes} {g : AnyVal} {w : V}
    (hp : ∀ f, magnitude f < double.inf → JNum (F f) ∧ pf (F f) ≠ none) (hok : AnyOK (fun s => ValidUTF8 s ∧ 0xB ∉ s) g) (hg : FromAny F g w) :
    Her (Exportable pf) w := by
  induction hg with
  | nil => exact her_leaf trivial trivial
  | bool b => exact her_leaf trivial trivial
  | str s =>
    cases hok with
    | str _ h => exact her_leaf h trivial
  | flt f n hn =>
    cases hok with
    | flt _ h => exact her_leaf (hp f h) trivial
  | slice gs xs hl h' ih =>
    cases hok with
    | slice _ hok =>
      refine her_of_kids trivial fun c hc => ?_
      have hc : c ∈ xs := hc
      obtain ⟨i, hi⟩ := List.getElem?_of_mem hc
      have hlt : i < gs.length := by rw [hl]; exact (List.getElem?_eq_some_iff.1 hi).1
      exact ih i gs[i] c (List.getElem?_eq_getElem hlt) hi (hok _ (List.getElem_mem _))
  | map gs n kvs low hn hk h' ih =>
    cases hok with
    | map _ _ hP hok =>
      have find : ∀ e ∈ kvs, ∃ g, anyFind e.key gs = some g ∧ members (.obj n kvs low) e.key = some e.v := by
        intro e he
        have hm : members (.obj n kvs low) e.key = some e.v := by rw [members_eq, lookup_mem_nodup hn he]; rfl
        have := hk e.key
        rw [hm] at this
        obtain ⟨g, hg⟩ := Option.isSome_iff_exists.1 this
        exact ⟨g, hg, hm⟩
      refine her_of_kids (fun e he => ?_) fun c hc => ?_
      · obtain ⟨g, hg, -⟩ := find e he
        exact hP _ (anyFind_mem hg)
      · obtain ⟨e, he, rfl⟩ := hc
        obtain ⟨g, hg, hm⟩ := find e he
        exact ih _ _ _ hg hm (hok _ (anyFind_mem hg))

theorem fromAny_nests {F : BitVec 64 → Bytes} {g : AnyVal} {w : V} (hg : FromAny F g w) : ∀ n, AnyNests n g → Nests n w := by
  have scalar : ∀ {v : V}, IsScalar v → ∀ n, Nests n v := by
    intro v hv n l c hc hs
    cases l with
    | nil => cases hc; exact absurd hv hs
    | cons s l =>
      exfalso
      simp only [V.at] at hc
      cases v <;> first | exact hv.elim | (cases s <;> simp [V.child] at hc)
  have cons : ∀ {v : V} {n : Nat}, (∀ c, Kid v c → Nests n c) → Nests (n + 1) v := by
    intro v n h l c hc hs
    cases l with
    | nil => simp
    | cons s l =>
      simp only [V.at] at hc
      cases hs' : v.child s with
      | none => rw [hs'] at hc; cases hc
      | some d =>
        rw [hs'] at hc
        have := h d (child_kid hs') l c hc hs
        simp; omega
  induction hg with
  | slice gs xs hl h' ih =>
    intro n hn
    cases hn with
    | slice n _ hn =>
      refine cons fun c hc => ?_
      have hc : c ∈ xs := hc
      obtain ⟨i, hi⟩ := List.getElem?_of_mem hc
      have hlt : i < gs.length := by rw [hl]; exact (List.getElem?_eq_some_iff.1 hi).1
      exact ih i gs[i] c (List.getElem?_eq_getElem hlt) hi n (hn _ (List.getElem_mem _))
  | map gs m kvs low hnd hk h' ih =>
    intro n hn
    cases hn with
    | map n _ hn =>
      refine cons fun c hc => ?_
      obtain ⟨e, he, rfl⟩ := hc
      have hm : members (.obj m kvs low) e.key = some e.v := by rw [members_eq, lookup_mem_nodup hnd he]; rfl
      have := hk e.key
      rw [hm] at this
      obtain ⟨g, hg⟩ := Option.isSome_iff_exists.1 this
      exact ih _ _ _ hg hm n (hn _ (anyFind_mem hg))
  | nil => exact fun n _ => scalar (v := .null) trivial n
  | bool b => exact fun n _ => scalar (v := .bool b) trivial n
  | flt f m _ => exact fun n _ => scalar (v := .num (F f) m) trivial n
  | str s => exact fun n _ => scalar (v := .str s) trivial n

/-- exported data can be there -/
theorem exported_ok {pf : Bytes → Option (BitVec 64)} {v : V} {g : AnyVal} (h : Exported pf v g)
    (hf : Her (fun c => match c with | .num src _ => ∀ f, pf src = some f → magnitude f < double.inf | _ => True) v) (hk : Her KeysNodup v) : AnyOK (fun _ => True) g := by
  induction h with
  | null => exact .nil
  | bool b => exact .bool b
  | str s => exact .str s trivial
  | num src n f h => exact .flt f (her_self hf f h)
  | arr xs gs hl h ih =>
    refine .slice gs fun g hg => ?_
    obtain ⟨i, hi⟩ := List.getElem?_of_mem hg
    have hlt : i < xs.length := by rw [hl]; exact (List.getElem?_eq_some_iff.1 hi).1
    have hx : xs[i]? = some xs[i] := List.getElem?_eq_getElem hlt
    have hc : Kid (.arr xs) xs[i] := List.getElem_mem _
    exact ih i _ _ hx hi (her_kid hk hf hc) (her_kid hk hk hc)
  | obj n kvs low gs hn hm h ih =>
    refine .map gs hn (fun _ _ => trivial) fun p hp => ?_
    have hg := anyFind_of_mem hn hp
    have := hm p.1
    rw [hg] at this
    obtain ⟨c, hc⟩ := Option.isSome_iff_exists.1 this
    have hkid : Kid (.obj n kvs low) c := by
      rw [members_eq] at hc
      obtain ⟨e, he, rfl⟩ := Option.map_eq_some_iff.1 hc
      exact ⟨e, (lookup_some_key he).2, rfl⟩
    exact ih _ _ _ hc hg (her_kid hk hf hkid) (her_kid hk hk hkid)

end JV
