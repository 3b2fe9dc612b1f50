import Verif.Spec.Imported
import Verif.Proofs.ImportTotal
/-! Imported values are built values. -/
namespace JV
open Spec

variable {E : Env} {S : SortFn} {F : FloatText}

theorem built_leaf {v : V} (h : IsScalar v) : Built E Any v := .scalar v h trivial

theorem built_mustAppend {res c w : V} (h : mustAppend E res c = .ok w) (hr : Built E Any res) (hc : Built E Any c) : Built E Any w := by
  unfold mustAppend at h
  have hb := Built.append (E := E) (L := Any) false res { c := c } [] hr hc
  revert h hb
  cases append E false res { c := c } [] with
  | mk r o => cases o <;> intro h hb <;> cases h <;> exact hb

theorem built_mustSetKey {res c w : V} {k : Bytes} (h : mustSetKey E res c k = .ok w) (hr : Built E Any res) (hc : Built E Any c) : Built E Any w := by
  unfold mustSetKey at h
  have hb := Built.set (E := E) (L := Any) res { c := c } [.str k] hr hc
  revert h hb
  cases set E res { c := c } [.str k] with
  | mk r o => cases o <;> intro h hb <;> cases h <;> exact hb

theorem built_mustSetAll : ∀ {l : List (Bytes × V)} {res w : V}, mustSetAll E res l = .ok w → Built E Any res → (∀ p ∈ l, Built E Any p.2) → Built E Any w
  | [], res, w, h, hr, _ => by cases h; exact hr
  | (k, c) :: l, res, w, h, hr, hc => by
    unfold mustSetAll at h
    cases h1 : mustSetKey E res c k with
    | ok r => rw [h1] at h; exact built_mustSetAll h (built_mustSetKey h1 hr (hc (k, c) (by simp))) fun p hp => hc p (by simp [hp])
    | _ => rw [h1] at h; cases h

theorem built_arr {xs : List V} (h : ∀ c ∈ xs, Built E Any c) : Built E Any (.arr xs) := by
  have : ∀ ys zs : List V, (∀ c ∈ zs, Built E Any c) → Built E Any (.arr ys) → Built E Any (.arr (ys ++ zs)) := by
    intro ys zs
    induction zs generalizing ys with
    | nil => intro _ h; simpa using h
    | cons z zs ih =>
      intro h hy
      have := ih (ys ++ [z]) (fun c hc => h c (by simp [hc])) (built_mustAppend (mustAppend_arr ys z) hy (h z (by simp)))
      simpa using this
  simpa using this [] xs h .array

theorem built_members {n : BitVec 32} {kvs : List Ent} {low : Low} {l : List (Bytes × V)} (h : membersBySet S (.obj n kvs low) = .ok l)
    (hb : Built E Any (.obj n kvs low)) : ∀ p ∈ l, Built E Any p.2 := by
  have : membersBySet S (.obj n kvs low) = .ok ((sortBy S (fun a b => decide (a.id ≤ b.id)) kvs).map fun e => (e.key, e.v)) := by
    simp [membersBySet, rangeObjectsBySet, isObject, onV, visit_all]
  rw [this] at h
  cases h
  intro p hp
  obtain ⟨e, he, rfl⟩ := List.mem_map.1 hp
  have hn := (built_good hb [] _ rfl).1
  have hl := lookup_mem hn (sortBy_mem he)
  exact .child _ [.key e.key] _ hb (by simp [V.at, V.child, hl])

theorem built_anon {name : Bytes} {ex : Ext} {c : V} {l : List (Bytes × V)} (h : anonMembers S name ex c = .ok l) (hb : Built E Any c) : ∀ p ∈ l, Built E Any p.2 := by
  cases c with
  | nilp => cases h; simp
  | notExist => cases h; simp
  | obj n kvs low => exact built_members h hb
  | _ =>
    simp only [anonMembers] at h
    split at h <;> cases h
    · simp
    · simpa using hb

theorem built_ite {c : Bool} {v w : V} (h : R.ok (if c = true then V.nilp else v) = .ok w) (hv : Built E Any v) : Built E Any w := by
  cases h; cases c
  · exact hv
  · exact built_leaf trivial

mutual
theorem built_val : ∀ (x : GoVal) (ex : Ext) (ro : RO) (v : V), AllJV (Built E Any) x → importVal E S F ex ro x = .ok v → Built E Any v
  | .invalid => fun ex ro v _ h => built_ite h (built_leaf trivial)
  | .bool b => fun ex ro v _ h => built_ite h (by split <;> exact built_leaf trivial)
  | .int b => fun ex ro v _ h => built_ite h (by split <;> exact built_leaf trivial)
  | .uint b => fun ex ro v _ h => built_ite h (by split <;> exact built_leaf trivial)
  | .flt w b => fun ex ro v _ h => built_ite h (by split <;> exact built_leaf trivial)
  | .str b => fun ex ro v _ h => built_ite h (built_leaf trivial)
  | .bytes false b => fun ex ro v _ h => by
    simp only [importVal] at h
    split at h
    · exact built_ite h (built_leaf trivial)
    · cases h
  | .bytes true b => fun ex ro v _ h => by
    simp only [importVal] at h
    split at h
    · exact built_ite h .array
    · cases h
      refine built_arr fun c hc => ?_
      obtain ⟨u, -, rfl⟩ := List.mem_map.1 (hc : c ∈ byteElems _ _ _)
      simp only
      split
      · exact built_leaf trivial
      · split <;> exact built_leaf trivial
  | .arr xs => fun ex ro v hj h => built_list xs _ _ _ v hj .array h
  | .nilSlice => fun ex ro v _ h => built_ite h .array
  | .slice xs => fun ex ro v hj h => by
    simp only [importVal] at h
    split at h
    · exact built_ite h .array
    · exact built_list xs _ _ _ v hj .array h
  | .nilMap => fun ex ro v _ h => built_ite h (built_leaf trivial)
  | .map kvs => fun ex ro v hj h => by
    simp only [importVal] at h
    split at h
    · exact built_ite h .object
    · exact built_pairs kvs _ _ _ v hj .object h
  | .badMap => fun ex ro v _ h => by cases h
  | .nilPtr t => fun ex ro v _ h => built_ite h (built_leaf trivial)
  | .ptr x => fun ex ro v hj h => built_val x ex ro v hj h
  | .iface x => fun ex ro v hj h => built_val x ex ro.elem v hj h
  | .struct fs => fun ex ro v hj h => built_fields fs ex ro _ v hj .object h
  | .jv w => fun ex ro v hj h => by
    simp only [importVal] at h
    split at h
    · cases h
      cases w with
      | nilp => exact built_leaf trivial
      | _ => exact .copy _ hj nofun
    · cases h
  | .marsh e out => fun ex ro v _ h => by
    simp only [importVal] at h
    split at h
    · cases out with
      | none => cases h
      | some b =>
        obtain ⟨w, e', h1, -⟩ := C01_unmarshal_total E b
        simp only [parseJSONMarshaler, h1] at h
        cases e' with
        | some e' => cases h
        | none => exact built_ite h (.parsed b w (goUnmarshal_ok.1 h1).2)
    · cases h
  | .text e out => fun ex ro v _ h => by
    simp only [importVal] at h
    split at h
    · cases out with
      | none => cases h
      | some b => exact built_ite h (built_leaf trivial)
    · cases h
  | .nilMarsh => fun ex ro v _ h => by
    simp only [importVal] at h
    split at h
    · cases h; exact built_leaf trivial
    · cases h
  | .unsupported => fun ex ro v _ h => by cases h
termination_by structural x => x
theorem built_list : ∀ (xs : List GoVal) (ex : Ext) (ro : RO) (res v : V), AllJVL (Built E Any) xs → Built E Any res → importList E S F ex ro res xs = .ok v → Built E Any v
  | [] => fun ex ro res v _ hr h => by cases h; exact hr
  | x :: xs => fun ex ro res v hj hr h => by
    simp only [importList] at h
    cases h1 : importVal E S F ex ro x with
    | ok c =>
      rw [h1] at h
      simp only at h
      cases h2 : mustAppend E res c with
      | ok w => rw [h2] at h; exact built_list xs ex ro w v hj.2 (built_mustAppend h2 hr (built_val x ex ro c hj.1 h1)) h
      | _ => rw [h2] at h; cases h
    | _ => rw [h1] at h; cases h
termination_by structural xs => xs
theorem built_pairs : ∀ (ps : List GoPair) (ex : Ext) (ro : RO) (res v : V), AllJVP (Built E Any) ps → Built E Any res → importPairs E S F ex ro res ps = .ok v → Built E Any v
  | [] => fun ex ro res v _ hr h => by cases h; exact hr
  | p :: ps => fun ex ro res v hj hr h => by
    simp only [importPairs] at h
    cases h1 : importPair E S F ex ro p with
    | ok kc =>
      rw [h1] at h
      simp only at h
      cases h2 : mustSetKey E res kc.2 kc.1 with
      | ok w => rw [h2] at h; exact built_pairs ps ex ro w v hj.2 (built_mustSetKey h2 hr (built_pair p ex ro kc hj.1 h1)) h
      | _ => rw [h2] at h; cases h
    | _ => rw [h1] at h; cases h
termination_by structural ps => ps
theorem built_pair : ∀ (p : GoPair) (ex : Ext) (ro : RO) (kc : Bytes × V), AllJVpair (Built E Any) p → importPair E S F ex ro p = .ok kc → Built E Any kc.2
  | .mk k x => fun ex ro kc hj h => by
    simp only [importPair] at h
    cases h1 : importVal E S F ex ro x with
    | ok c => rw [h1] at h; cases h; exact built_val x ex ro c hj h1
    | _ => rw [h1] at h; cases h
termination_by structural p => p
theorem built_fields : ∀ (fs : List GoField) (ex : Ext) (ro : RO) (res v : V), AllJVF (Built E Any) fs → Built E Any res → importFields E S F ex ro res fs = .ok v → Built E Any v
  | [] => fun ex ro res v _ hr h => by cases h; exact hr
  | f :: fs => fun ex ro res v hj hr h => by
    simp only [importFields] at h
    cases h1 : importField E S F ex ro f with
    | ok l =>
      rw [h1] at h
      simp only at h
      cases h2 : mustSetAll E res l with
      | ok w => rw [h2] at h; exact built_fields fs ex ro w v hj.2 (built_mustSetAll h2 hr (built_field f ex ro l hj.1 h1)) h
      | _ => rw [h2] at h; cases h
    | _ => rw [h1] at h; cases h
termination_by structural fs => fs
theorem built_field : ∀ (f : GoField) (ex : Ext) (ro : RO) (l : List (Bytes × V)), AllJVfield (Built E Any) f → importField E S F ex ro f = .ok l → ∀ p ∈ l, Built E Any p.2
  | .mk name tag true exported x => fun ex ro l hj h => by
    simp only [importField] at h
    split at h
    · cases h; simp
    · split at h
      · split at h
        · cases h; simp
        · cases h; intro p hp; simp at hp; subst hp; exact built_leaf trivial
      · cases h1 : importVal E S F (readAnonymousFieldTag E name tag ex).2 (ro.field true exported) x with
        | ok c => rw [h1] at h; exact built_anon h (built_val x _ _ c hj h1)
        | _ => rw [h1] at h; cases h
  | .mk name tag false exported x => fun ex ro l hj h => by
    simp only [importField] at h
    split at h
    · cases h; simp
    · split at h
      · cases h; simp
      · cases h1 : importVal E S F (readFieldTag E name tag ex).2 (ro.field false exported) x with
        | ok c =>
          rw [h1] at h
          cases h
          intro p hp
          cases hn : isNil c with
          | true => simp [hn] at hp
          | false => simp [hn] at hp; subst hp; exact built_val x _ _ c hj h1
        | _ => rw [h1] at h; cases h
termination_by structural f => f
end

theorem goImport_built {ig : Bool} {x : GoVal} {v : V} {e : Option Err} (hj : AllJV (Built E Any) x) (h : goImport E S F ig x = .ok (v, e)) : Built E Any v := by
  unfold goImport at h
  cases h1 : importVal E S F { ignoreOmitempty := ig } .no x with
  | ok c => rw [h1] at h; cases h; exact built_val x _ _ v hj h1
  | err e => rw [h1] at h; cases h; exact built_leaf trivial
  | _ => rw [h1] at h; cases h

end JV
