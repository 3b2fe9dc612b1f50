import Verif.Proofs.ImportTag
import Verif.Proofs.Base64
import Verif.Proofs.SetSeq
import Verif.Proofs.HeapCopy
import Verif.Proofs.Sort
import Verif.Props.Modify
import Verif.Props.Parsing
/-! Objects under construction by Import, and the members encoding/json chooses. -/
namespace JV
open Spec

/-- `v` is an object with the members `L`, in some order -/
def Objs (v : V) (L : List (Bytes × V)) : Prop :=
  ∃ n kvs, v = .obj n kvs none ∧ (kvs.map fun e => (e.key, e.v)).Perm L ∧ (keys kvs).Nodup

theorem objs_new : Objs newObject [] := ⟨0, [], rfl, by simp, by simp⟩

theorem objs_keys {v : V} {L : List (Bytes × V)} (h : Objs v L) : (L.map Prod.fst).Nodup := by
  obtain ⟨n, kvs, rfl, hp, hn⟩ := h
  have := (hp.map Prod.fst).nodup_iff.1
  apply this
  simpa [keys, List.map_map, Function.comp_def] using hn

theorem objs_perm {v : V} {L L' : List (Bytes × V)} (h : Objs v L) (hp : L.Perm L') : Objs v L' := by
  obtain ⟨n, kvs, rfl, hp', hn⟩ := h
  exact ⟨n, kvs, rfl, hp'.trans hp, hn⟩

theorem objs_uninit {v : V} {L : List (Bytes × V)} (h : Objs v L) : v.uninit = false := by
  obtain ⟨n, kvs, rfl, -, -⟩ := h; rfl

theorem assign_fresh {e : Ent} : ∀ {kvs : List Ent}, e.key ∉ keys kvs → assign e kvs = kvs ++ [e]
  | [], _ => rfl
  | x :: xs, h => by
    rw [keys_cons, List.mem_cons, not_or] at h
    rw [assign, if_neg (Ne.symm h.1), assign_fresh h.2]; rfl

theorem mustSetKey_objs {E : Env} {v c : V} {k : Bytes} {L : List (Bytes × V)} (h : Objs v L) (hk : k ∉ L.map Prod.fst) (hc : c.uninit = false) :
    ∃ w, mustSetKey E v c k = .ok w ∧ Objs w (L ++ [(k, c)]) := by
  obtain ⟨n, kvs, rfl, hp, hn⟩ := h
  have hk' : k ∉ keys kvs := by
    intro hm
    apply hk
    refine (hp.map Prod.fst).mem_iff.1 ?_
    simpa [keys, List.map_map, Function.comp_def] using hm
  have hf : assign ⟨k, n + 1, c⟩ kvs = kvs ++ [⟨k, n + 1, c⟩] := assign_fresh hk'
  refine ⟨.obj (n + 1) (assign ⟨k, n + 1, c⟩ kvs) none, ?_, n + 1, _, rfl, ?_, nodup_assign hn⟩
  · have hu : (V.obj n kvs none).uninit = false := rfl
    simp [mustSetKey, set, setAt, setAt1, hu, hc, atLastParam, anyToString, setKey, addCaseless]
  · rw [hf]
    simp only [List.map_append, List.map_cons, List.map_nil]
    exact hp.append_right _

theorem mustSetAll_objs {E : Env} : ∀ {l : List (Bytes × V)} {v : V} {L : List (Bytes × V)}, Objs v L → ((L ++ l).map Prod.fst).Nodup →
    (∀ p ∈ l, p.2.uninit = false) → ∃ w, mustSetAll E v l = .ok w ∧ Objs w (L ++ l)
  | [], v, L, h, _, _ => ⟨v, rfl, by simpa using h⟩
  | (k, c) :: l, v, L, h, hn, hc => by
    have hk : k ∉ L.map Prod.fst := by
      rw [List.map_append, List.nodup_append] at hn
      intro hm
      exact hn.2.2 k hm k (by simp) rfl
    obtain ⟨w, hw, ho⟩ := mustSetKey_objs (E := E) h hk (hc (k, c) (by simp))
    obtain ⟨w', hw', ho'⟩ := mustSetAll_objs (E := E) (l := l) ho (by simpa using hn) (fun p hp => hc p (by simp [hp]))
    refine ⟨w', ?_, by simpa using ho'⟩
    simp only [mustSetAll, hw]
    exact hw'

/-- members as encoding/json has them, and the keys and children of the object -/
inductive MRel (E : Env) (F T : FloatText) : List (Bytes × V) → List GMem → Prop
  | nil : MRel E F T [] []
  | cons {k c g L ms} : Holds E F T g c → Marshalable c → MRel E F T L ms → MRel E F T ((k, c) :: L) (⟨k, g⟩ :: ms)

variable {E : Env} {F T : FloatText}

theorem mrel_append {L L' : List (Bytes × V)} {ms ms' : List GMem} (h : MRel E F T L ms) (h' : MRel E F T L' ms') : MRel E F T (L ++ L') (ms ++ ms') := by
  induction h with
  | nil => exact h'
  | cons h1 h2 _ ih => exact .cons h1 h2 ih

theorem mrel_keys {L : List (Bytes × V)} {ms : List GMem} (h : MRel E F T L ms) : L.map Prod.fst = ms.map GMem.key := by
  induction h with
  | nil => rfl
  | cons _ _ _ ih => simp [ih, GMem.key]

theorem mrel_marsh {L : List (Bytes × V)} {ms : List GMem} (h : MRel E F T L ms) : ∀ p ∈ L, Marshalable p.2 := by
  induction h with
  | nil => simp
  | cons _ h2 _ ih => simpa [h2] using ih

theorem marsh_uninit {v : V} (h : Marshalable v) : v.uninit = false := by
  cases v with
  | nilp => exact absurd rfl (h.2.1 [])
  | notExist => exact absurd rfl h.2.2
  | _ => rfl

theorem mrel_uninit {L : List (Bytes × V)} {ms : List GMem} (h : MRel E F T L ms) : ∀ p ∈ L, p.2.uninit = false :=
  fun p hp => marsh_uninit (mrel_marsh h p hp)

theorem marsh_her {v : V} (h : Marshalable v) : Her (· ≠ .nilp) v := fun l c hc h' => h.2.1 l (h' ▸ hc)

theorem marsh_kids {v : V} (h : KeysNodup v) (h1 : v ≠ .nilp) (h2 : v ≠ .notExist) (hk : ∀ c, Kid v c → Marshalable c) : Marshalable v :=
  ⟨her_of_kids h fun c hc => (hk c hc).1, noNil_her (her_of_kids h1 fun c hc => marsh_her (hk c hc)), h2⟩

theorem objs_marsh {v : V} {L : List (Bytes × V)} (h : Objs v L) (hL : ∀ p ∈ L, Marshalable p.2) : Marshalable v := by
  obtain ⟨n, kvs, rfl, hp, hn⟩ := h
  refine marsh_kids hn (by simp) (by simp) ?_
  rintro c ⟨e, he, rfl⟩
  exact hL (e.key, e.v) (hp.mem_iff.1 (List.mem_map_of_mem (f := fun e => (e.key, e.v)) he))

theorem marsh_arr {xs : List V} (h : ∀ x ∈ xs, Marshalable x) : Marshalable (.arr xs) := marsh_kids trivial (by simp) (by simp) h

theorem marsh_leaf {v : V} (hs : IsScalar v) (h1 : v ≠ .nilp) (h2 : v ≠ .notExist) : Marshalable v :=
  marsh_kids (by cases v <;> first | trivial | exact hs.elim) h1 h2 fun c hc => by cases v <;> first | exact hs.elim | exact (hc : False).elim

theorem mrel_none {L : List (Bytes × V)} {ms : List GMem} {k : Bytes} (h : MRel E F T L ms) (hm : memOf k ms = none) : k ∉ L.map Prod.fst := by
  induction h with
  | nil => simp
  | @cons k' c g L ms _ _ _ ih =>
    unfold memOf at hm
    by_cases hk : k' = k
    · simp [hk] at hm
    · rw [if_neg hk] at hm
      simp only [List.map_cons, List.mem_cons, not_or]
      exact ⟨fun h => hk h.symm, ih hm⟩

theorem mrel_some {L : List (Bytes × V)} {ms : List GMem} {k : Bytes} {g : GJ} (h : MRel E F T L ms) (hm : memOf k ms = some g) : ∃ c, (k, c) ∈ L ∧ Holds E F T g c := by
  induction h with
  | nil => simp [memOf] at hm
  | @cons k' c g' L ms h1 _ _ ih =>
    unfold memOf at hm
    by_cases hk : k' = k
    · subst hk; simp at hm; subst hm
      exact ⟨c, by simp, h1⟩
    · rw [if_neg hk] at hm
      obtain ⟨c', hc', hh⟩ := ih hm
      exact ⟨c', by simp [hc'], hh⟩

theorem mrel_length {L : List (Bytes × V)} {ms : List GMem} (h : MRel E F T L ms) : L.length = ms.length := by
  simpa using congrArg List.length (mrel_keys h)

theorem lookup_none_keys {k : Bytes} : ∀ {kvs : List Ent}, k ∉ keys kvs → lookup k kvs = none
  | [], _ => rfl
  | x :: xs, h => by
    rw [keys_cons, List.mem_cons, not_or] at h
    rw [lookup, if_neg (Ne.symm h.1), lookup_none_keys h.2]

theorem objs_holds {v : V} {L : List (Bytes × V)} {ms : List GMem} (h : Objs v L) (hr : MRel E F T L ms) : Holds E F T (.obj ms) v := by
  have hnd := objs_keys h
  obtain ⟨n, kvs, rfl, hp, hn⟩ := h
  have hget : ∀ k g, memOf k ms = some g → ∃ e, lookup k kvs = some e ∧ Holds E F T g e.v := by
    intro k g hm
    obtain ⟨c, hc, hh⟩ := mrel_some hr hm
    obtain ⟨e, he, hkc⟩ := List.mem_map.1 (hp.mem_iff.2 hc)
    obtain ⟨rfl, rfl⟩ := Prod.mk.inj hkc
    exact ⟨e, lookup_mem_nodup hn he, hh⟩
  refine .obj ms _ (fun k => match lookup k kvs with | some e => e.v | none => .nilp) rfl (mrel_keys hr ▸ hnd) ?_ ?_ ?_ ?_
  · have := hp.length_eq
    simp only [List.length_map] at this
    simp [len, this, mrel_length hr]
  · intro k hk
    have h1 := mrel_none hr hk
    have h2 : k ∉ keys kvs := by
      intro hm
      apply h1
      refine (hp.map Prod.fst).mem_iff.1 ?_
      simpa [keys, List.map_map, Function.comp_def] using hm
    rw [get_key, lookup_none_keys h2]
  · intro k g hk
    obtain ⟨e, he, -⟩ := hget k g hk
    rw [get_key]; simp only [he]
  · intro k g hk
    obtain ⟨e, he, hh⟩ := hget k g hk
    simp only [he]
    exact hh

theorem visit_all {α : Type} : ∀ (l : List (α × V)) (acc : List (α × V)), visit (fun s k c => (s ++ [(k, c)], true)) l acc = acc ++ l
  | [], acc => by simp [visit]
  | (k, c) :: l, acc => by simp [visit, visit_all l]

theorem objs_members {S : SortFn} (hS : GoodSort S) {v : V} {L : List (Bytes × V)} (h : Objs v L) : ∃ l, membersBySet S v = .ok l ∧ l.Perm L := by
  obtain ⟨n, kvs, rfl, hp, hn⟩ := h
  refine ⟨(sortBy S (fun a b => decide (a.id ≤ b.id)) kvs).map fun e => (e.key, e.v), ?_, ((sortBy_perm hS _ kvs).map _).trans hp⟩
  simp [membersBySet, rangeObjectsBySet, isObject, onV, visit_all]

/-! ### the fields encoding/json chooses -/

theorem visible_append : ∀ {cs cs' : List Cand} {ms ms' : List GMem}, visible cs = some ms → visible cs' = some ms' → visible (cs ++ cs') = some (ms ++ ms')
  | [], cs', ms, ms', h, h' => by simp [visible] at h; subst h; simpa using h'
  | c :: cs, cs', ms, ms', h, h' => by
    rw [List.cons_append]
    unfold visible at h ⊢
    by_cases hc : (c.hidden || c.omitted) = true
    · rw [if_pos hc] at h ⊢
      exact visible_append h h'
    · rw [if_neg hc] at h ⊢
      cases hr : c.res with
      | none => simp [hr] at h
      | some g =>
        cases hv : visible cs with
        | none => simp [hr, hv] at h
        | some ms1 =>
          simp [hr, hv] at h
          subst h
          simp [visible_append hv h']

theorem visible_names : ∀ {cs : List Cand} {ms : List GMem}, visible cs = some ms → (ms.map GMem.key).Sublist (cs.map Cand.name)
  | [], ms, h => by simp [visible] at h; subst h; simp
  | c :: cs, ms, h => by
    unfold visible at h
    by_cases hc : (c.hidden || c.omitted) = true
    · rw [if_pos hc] at h
      exact (visible_names h).cons _
    · rw [if_neg hc] at h
      cases hr : c.res with
      | none => simp [hr] at h
      | some g =>
        cases hv : visible cs with
        | none => simp [hr, hv] at h
        | some ms1 =>
          simp [hr, hv] at h
          subst h
          simpa [GMem.key] using visible_names hv

theorem visible_hidden : ∀ {cs : List Cand}, (∀ c ∈ cs, c.hidden = true) → visible cs = some []
  | [], _ => rfl
  | c :: cs, h => by
    unfold visible
    rw [if_pos (by simp [h c (by simp)]), visible_hidden fun d hd => h d (by simp [hd])]

theorem filter_name {cs : List Cand} {c : Cand} (hn : (cs.map Cand.name).Nodup) (hc : c ∈ cs) : cs.filter (fun d => d.name = c.name) = [c] := by
  induction cs with
  | nil => simp at hc
  | cons d cs ih =>
    rw [List.map_cons, List.nodup_cons] at hn
    rcases List.mem_cons.1 hc with rfl | hc
    · rw [List.filter_cons_of_pos (by simp)]
      rw [List.filter_eq_nil_iff.2]
      intro x hx h
      have : x.name = c.name := by simpa using h
      exact hn.1 (this ▸ List.mem_map_of_mem hx)
    · rw [List.filter_cons_of_neg, ih hn.2 hc]
      intro h
      have : d.name = c.name := by simpa using h
      exact hn.1 (this ▸ List.mem_map_of_mem hc)

theorem wins_nodup {cs : List Cand} (hn : (cs.map Cand.name).Nodup) : cs.filter (wins cs) = cs := by
  rw [List.filter_eq_self]
  intro c hc
  unfold wins
  simp only [filter_name hn hc]
  cases h : c.tagged <;> simp [h]

variable {N : Bytes → Bool} {om : Bool}

mutual
theorem cands_hidden (d : Nat) : ∀ fs : List GoField, ∀ c ∈ stdCands N om d true fs, c.hidden = true
  | [] => by simp [stdCands]
  | f :: fs => by
    intro c hc
    rw [stdCands, List.mem_append] at hc
    rcases hc with hc | hc
    · exact cand_hidden d f c hc
    · exact cands_hidden d fs c hc
termination_by structural fs => fs
theorem cand_hidden (d : Nat) : ∀ f : GoField, ∀ c ∈ stdCand N om d true f, c.hidden = true
  | .mk name tag anon exported x => by
    have hx := emb_hidden d true x
    intro c hc
    rw [stdCand] at hc
    simp only at hc
    cases hemb : (if anon = true then stdEmb N om d true true x else none) with
    | none =>
      simp only [hemb] at hc
      split at hc
      · simp at hc
      · split at hc
        · simp at hc
        · simp at hc; simp [hc]
    | some cs =>
      have hcs : stdEmb N om d true true x = some cs := by
        cases anon with
        | false => simp at hemb
        | true => simpa using hemb
      simp only [hemb] at hc
      split at hc
      · simp at hc
      · split at hc
        · simp at hc
        · split at hc
          · rename_i heq _
            cases heq
            exact hx cs hcs c hc
          · simp at hc; simp [hc]
termination_by structural f => f
theorem emb_hidden (d : Nat) (viaPtr : Bool) : ∀ x : GoVal, ∀ cs, stdEmb N om d true viaPtr x = some cs → ∀ c ∈ cs, c.hidden = true
  | .struct fs => by
    intro cs h c hc
    simp [stdEmb] at h; subst h
    exact cands_hidden (d + 1) fs c hc
  | .ptr x => by
    intro cs h
    simp only [stdEmb] at h
    cases viaPtr with
    | false => simp at h
    | true => exact emb_hidden d false x cs (by simpa using h)
  | .nilPtr x => by
    intro cs h
    simp only [stdEmb] at h
    cases viaPtr with
    | false => simp at h
    | true => exact emb_hidden d false x cs (by simpa using h)
  | .invalid => by simp [stdEmb]
  | .bool _ => by simp [stdEmb]
  | .int _ => by simp [stdEmb]
  | .uint _ => by simp [stdEmb]
  | .flt _ _ => by simp [stdEmb]
  | .str _ => by simp [stdEmb]
  | .bytes _ _ => by simp [stdEmb]
  | .arr _ => by simp [stdEmb]
  | .nilSlice => by simp [stdEmb]
  | .slice _ => by simp [stdEmb]
  | .nilMap => by simp [stdEmb]
  | .map _ => by simp [stdEmb]
  | .badMap => by simp [stdEmb]
  | .iface _ => by simp [stdEmb]
  | .jv _ => by simp [stdEmb]
  | .marsh _ _ => by simp [stdEmb]
  | .text _ _ => by simp [stdEmb]
  | .nilMarsh => by simp [stdEmb]
  | .unsupported => by simp [stdEmb]
termination_by structural x => x
end

/-- whether an embedded field is a struct does not depend on how deep it is -/
theorem emb_none_depth (d d' : Nat) (hid hid' : Bool) (b : Bool) (x : GoVal) (h : stdEmb N om d hid b x = none) : stdEmb N om d' hid' b x = none := by
  have aux : ∀ (hid hid' : Bool) (x : GoVal), stdEmb N om d hid false x = none → stdEmb N om d' hid' false x = none := by
    intro hid hid' x h
    cases x <;> simp_all [stdEmb]
  cases b with
  | false => exact aux hid hid' x h
  | true =>
    cases x with
    | ptr x => simp only [stdEmb, if_true] at h ⊢; exact aux _ _ x h
    | nilPtr x => simp only [stdEmb, if_true] at h ⊢; exact aux _ _ x h
    | _ => simp_all [stdEmb]

/-! ### copies -/

mutual
theorem deepCopy_copied : ∀ v : V, deepCopy v = copied v
  | .nilp => by simp [deepCopy, copied]
  | .notExist => by simp [deepCopy, copied]
  | .null => by simp [deepCopy, copied]
  | .bool _ => by simp [deepCopy, copied]
  | .num _ _ => by simp [deepCopy, copied]
  | .str _ => by simp [deepCopy, copied]
  | .arr xs => by simp [deepCopy, copied, deepCopyL_copied xs]
  | .obj n kvs low => by simp [deepCopy, copied, deepCopyE_copied kvs]
termination_by structural v => v
theorem deepCopyL_copied : ∀ xs : List V, deepCopyL xs = copiedL xs
  | [] => rfl
  | x :: xs => by simp [deepCopyL, copiedL, deepCopy_copied x, deepCopyL_copied xs]
termination_by structural xs => xs
theorem deepCopyE_copied : ∀ es : List Ent, deepCopyE es = copiedM es
  | [] => rfl
  | e :: es => by
    have h1 := deepCopyEnt_copied e
    cases e with
    | mk k i v => simp only [deepCopyE, copiedM, h1, deepCopyE_copied es, Ent.v_mk, Ent.key_mk, Ent.id_mk]
termination_by structural es => es
theorem deepCopyEnt_copied : ∀ e : Ent, deepCopyEnt e = .mk e.key e.id (copied e.v)
  | .mk k i v => by simp [deepCopyEnt, deepCopy_copied v]
termination_by structural e => e
end

theorem copied_marsh {v : V} (h : v ≠ .notExist) (h' : Her (· ≠ .nilp) v) (hk : Her KeysNodup v) : Marshalable (copied v) := by
  refine ⟨copied_her copied_keysNodup hk, noNil_her (copied_her (fun w hw => ?_) h'), ?_⟩
  · cases w <;> simp_all [copied]
  · have : v ≠ .nilp := h' [] v rfl
    cases v <;> simp_all [copied]

end JV
