import Verif.Spec.Path
import Verif.Proofs.Maps
/-! Path resolution. -/
namespace JV
open Spec

theorem posForRead_eq (n : Nat) (i : Int) : posForRead n i = match index n i with | some j => (j : Int) | none => -1 := by
  unfold posForRead index
  by_cases h1 : 0 ≤ i ∧ i < n
  · rw [if_pos h1, if_neg (by omega), if_neg (by omega), if_neg (by omega)]; simp; omega
  · rw [if_neg h1]
    by_cases h2 : -(n : Int) ≤ i ∧ i < 0
    · rw [if_pos h2, if_neg (by omega), if_pos (by omega)]; simp only; rw [if_neg (by omega)]; omega
    · rw [if_neg h2]
      by_cases h3 : n = 0
      · rw [if_pos h3]
      · rw [if_neg h3]
        by_cases h4 : i < 0
        · rw [if_pos h4]; simp only; rw [if_pos (by omega)]
        · rw [if_neg h4, if_pos (by omega)]

theorem index_lt {n : Nat} {i : Int} {j : Nat} (h : index n i = some j) : j < n := by
  unfold index at h
  split at h
  · simp at h; omega
  · split at h
    · simp at h; omega
    · simp at h

theorem anyToInt_some {p : Param} {z : Int} : anyToInt p = .ok z ↔ intOf p = some z := by
  cases p <;> simp [anyToInt, intOf]

theorem anyToInt_cases (p : Param) : (∃ z, anyToInt p = .ok z ∧ intOf p = some z) ∨ (∃ e, anyToInt p = .err e ∧ intOf p = none) := by
  cases p <;> simp [anyToInt, intOf]

theorem anyToString_cases (p : Param) : (∃ k, p = .str k ∧ anyToString p = .ok k) ∨ (anyToString p = .err .parameterError ∧ ∀ k, p ≠ .str k) := by
  cases p <;> simp [anyToString]

theorem child_key (n kvs low k) : (V.obj n kvs low).child (.key k) = (lookup k kvs).map Ent.v := rfl
theorem child_idx (xs i) : (V.arr xs).child (.idx i) = xs[i]? := rfl

theorem put_child {v : V} {s : Step} {c : V} (h : v.child s = some c) : v.put s c = v := by
  match v, s, h with
  | .obj n kvs low, .key k, h =>
    simp only [child_key, Option.map_eq_some_iff] at h
    obtain ⟨e, he, rfl⟩ := h
    simp [V.put, putKey_same k e kvs he]
  | .arr xs, .idx i, h =>
    rw [child_idx] at h
    have hi : i < xs.length := by
      rcases Nat.lt_or_ge i xs.length with h' | h'
      · exact h'
      · rw [List.getElem?_eq_none (by omega)] at h; simp at h
    simp only [V.put]
    congr 1
    rw [List.getElem?_eq_getElem hi] at h
    simp at h
    rw [← h]; simp

/-- the error of `anyToInt` -/
def intErr : Param → Err
  | .nil => .parameterError
  | _ => .other

theorem anyToInt_eq (p : Param) : anyToInt p = match intOf p with | some z => .ok z | none => .err (intErr p) := by
  cases p <;> rfl

theorem locate_arr (E : Env) (cl : Bool) (xs : List V) (p : Param) : locate E cl (.arr xs) p = (.arr xs,
    match intOf p with
    | some z => match index xs.length z with
      | some i => .ok (.idx i)
      | none => .err .outOfRange
    | none => .err (intErr p)) := by
  unfold locate
  rw [anyToInt_eq]
  match hz : intOf p with
  | none => rfl
  | some z =>
    simp only [posForRead_eq]
    match hi : index xs.length z with
    | none => simp
    | some i =>
      have := index_lt hi
      simp [this, show ¬ ((i : Int) < 0) by omega]

theorem locate_obj (E : Env) (n kvs low p) : locate E false (.obj n kvs low) p = (.obj n kvs low,
    match p with
    | .str k => match lookup k kvs with
      | some _ => .ok (.key k)
      | none => .err .notFound
    | _ => .err .parameterError) := by
  unfold locate
  cases p <;> simp only [anyToString]
  rename_i k
  unfold findKey
  match lookup k kvs with
  | none => simp
  | some e => simp

/-- plain lookup of one parameter does not change the tree -/
theorem locate_plain (E : Env) (v : V) (p : Param) : (locate E false v p).1 = v := by
  match v with
  | .arr xs => rw [locate_arr]
  | .obj n kvs low => rw [locate_obj]
  | .nilp => rfl
  | .notExist => rfl
  | .str _ => rfl
  | .num _ _ => rfl
  | .bool _ => rfl
  | .null => rfl

/-- what a single parameter finds -/
theorem locate_ok {E : Env} {v : V} {p : Param} {s : Step} (h : (locate E false v p).2 = .ok s) :
    (∃ n kvs low k c, v = .obj n kvs low ∧ p = .str k ∧ s = .key k ∧ v.child s = some c) ∨
    (∃ xs z i c, v = .arr xs ∧ intOf p = some z ∧ index xs.length z = some i ∧ s = .idx i ∧ v.child s = some c) := by
  match v, h with
  | .arr xs, h =>
    right
    rw [locate_arr] at h
    match hz : intOf p, h with
    | none, h => simp at h
    | some z, h =>
      simp only at h
      match hi : index xs.length z, h with
      | none, h => simp at h
      | some i, h =>
        simp at h
        exact ⟨xs, z, i, xs[i]'(index_lt hi), rfl, rfl, hi, h.symm, by rw [← h, child_idx, List.getElem?_eq_getElem (index_lt hi)]⟩
  | .obj n kvs low, h =>
    left
    rw [locate_obj] at h
    cases p with
    | str k =>
      match hl : lookup k kvs, h with
      | none, h => simp [hl] at h
      | some e, h => simp [hl] at h; subst h; exact ⟨n, kvs, low, k, e.v, rfl, rfl, rfl, by simp [child_key, hl]⟩
    | _ => simp at h
  | .nilp, h => simp [locate] at h
  | .notExist, h => simp [locate] at h
  | .str _, h => simp [locate] at h
  | .num _ _, h => simp [locate] at h
  | .bool _, h => simp [locate] at h
  | .null, h => simp [locate] at h

theorem locate_key {E : Env} {n kvs low k c} (h : (V.obj n kvs low).child (.key k) = some c) :
    locate E false (.obj n kvs low) (.str k) = (.obj n kvs low, .ok (.key k)) := by
  simp only [child_key, Option.map_eq_some_iff] at h
  obtain ⟨e, he, rfl⟩ := h
  simp [locate, anyToString, findKey, he]

theorem locate_idx {E : Env} {xs p z i} (hz : intOf p = some z) (hi : index (List.length xs) z = some i) :
    locate E false (.arr xs) p = (.arr xs, .ok (.idx i)) := by
  have := index_lt hi
  simp [locate, anyToInt_some.2 hz, posForRead_eq, hi, this, show ¬ ((i : Int) < 0) by omega]

theorem locate_addr {E : Env} {v : V} {p : Param} {l : List Step} (h : (do let s ← (locate E false v p).2; pure [s] : R (List Step)) = .ok l) : Addr v [p] l := by
  match hs : (locate E false v p).2, h with
  | .ok s, h =>
    simp at h
    subst h
    rcases locate_ok hs with ⟨n, kvs, low, k, c', rfl, rfl, rfl, h4⟩ | ⟨xs, z, i, c', rfl, h2, h3, rfl, h4⟩
    · exact .key _ _ _ _ _ h4
    · exact .idx _ _ _ _ h2 h3
  | .err e, h => simp at h
  | .panic, h => simp at h
  | .diverge, h => simp at h

mutual
theorem resolve1_plain (E : Env) : ∀ (p : Param) (v : V), (resolve1 E false v p).1 = v
  | .slice qs, v => by
    simp only [resolve1]
    split
    · exact locate_plain E v _
    · exact resolve_plain E qs v
  | .nil, v => by simp only [resolve1]; exact locate_plain E v _
  | .int _, v => by simp only [resolve1]; exact locate_plain E v _
  | .uint _, v => by simp only [resolve1]; exact locate_plain E v _
  | .str _, v => by simp only [resolve1]; exact locate_plain E v _
  | .other, v => by simp only [resolve1]; exact locate_plain E v _
termination_by structural p => p
/-- `Get` does not change the tree -/
theorem resolve_plain (E : Env) : ∀ (ps : List Param) (v : V), (resolve E false v ps).1 = v
  | [], v => rfl
  | p :: rest, v => by
    unfold resolve
    split
    · exact resolve1_plain E p v
    · split
      · rfl
      · have hl := locate_plain E v p
        split
        · rename_i v' s hs
          rw [hs] at hl
          simp only at hl
          subst hl
          split
          · rfl
          · rename_i c hc
            simp only
            rw [resolve_plain E rest c]
            exact put_child hc
        · rename_i hs; rw [hs] at hl; exact hl
        · rename_i hs; rw [hs] at hl; exact hl
        · rename_i hs; rw [hs] at hl; exact hl
termination_by structural ps => ps
end

mutual
theorem resolve1_addr (E : Env) : ∀ (p : Param) (v : V) (l : List Step), (resolve1 E false v p).2 = .ok l → Addr v [p] l
  | .slice qs, v, l, h => by
    simp only [resolve1] at h
    split at h
    · match hl : (locate E false v .nil).2 with
      | .ok s =>
        rcases locate_ok hl with ⟨_, _, _, _, _, _, h, _⟩ | ⟨_, _, _, _, _, h, _⟩
        · simp at h
        · simp [intOf] at h
      | .err e => rw [hl] at h; simp at h
      | .panic => rw [hl] at h; simp at h
      | .diverge => rw [hl] at h; simp at h
    · have := resolve_addr E qs v l h
      cases qs with
      | nil => simp at *
      | cons q qs => exact .slice v q qs l this
  | .nil, v, l, h => locate_addr (by simpa only [resolve1] using h)
  | .int _, v, l, h => locate_addr (by simpa only [resolve1] using h)
  | .uint _, v, l, h => locate_addr (by simpa only [resolve1] using h)
  | .str _, v, l, h => locate_addr (by simpa only [resolve1] using h)
  | .other, v, l, h => locate_addr (by simpa only [resolve1] using h)
termination_by structural p => p
theorem resolve_addr (E : Env) : ∀ (ps : List Param) (v : V) (l : List Step), (resolve E false v ps).2 = .ok l → Addr v ps l
  | [], v, l, h => by simp [resolve] at h
  | p :: rest, v, l, h => by
    unfold resolve at h
    split at h
    · rename_i hr
      simp at hr
      subst hr
      exact resolve1_addr E p v l h
    · rename_i hr
      split at h
      · simp at h
      · have hl := locate_plain E v p
        split at h
        · rename_i v' s hs
          rw [hs] at hl
          simp only at hl
          subst hl
          split at h
          · simp at h
          · rename_i c hc
            match hq : (resolve E false c rest).2 with
            | .ok m =>
              rw [hq] at h
              simp at h
              subst h
              have ih := resolve_addr E rest c m hq
              cases rest with
              | nil => simp at hr
              | cons q qs =>
                rcases locate_ok (by rw [hs]) with ⟨n, kvs, low, k, c', rfl, rfl, rfl, h4⟩ | ⟨xs, z, i, c', rfl, h2, h3, rfl, h4⟩
                · exact .keyCons n kvs low k c q qs m hc ih
                · exact .idxCons xs p z i c q qs m h2 h3 hc ih
            | .err e => rw [hq] at h; simp at h
            | .panic => rw [hq] at h; simp at h
            | .diverge => rw [hq] at h; simp at h
        · simp at h
        · simp at h
        · simp at h
termination_by structural ps => ps
end

theorem locate_cases (E : Env) (v : V) (p : Param) :
    (∃ s, (locate E false v p).2 = .ok s) ∨ (∃ e, (locate E false v p).2 = .err e) ∨ ((locate E false v p).2 = .panic ∧ v = .nilp) := by
  match v with
  | .arr xs =>
    rw [locate_arr]
    cases hz : intOf p with
    | none => exact .inr (.inl ⟨_, rfl⟩)
    | some z =>
      simp only
      cases index xs.length z with
      | none => exact .inr (.inl ⟨_, rfl⟩)
      | some i => exact .inl ⟨_, rfl⟩
  | .obj n kvs low =>
    rw [locate_obj]
    cases p with
    | str k =>
      simp only
      cases lookup k kvs with
      | none => exact .inr (.inl ⟨_, rfl⟩)
      | some i => exact .inl ⟨_, rfl⟩
    | _ => exact .inr (.inl ⟨_, rfl⟩)
  | .nilp => exact .inr (.inr ⟨rfl, rfl⟩)
  | .notExist => exact .inr (.inl ⟨_, rfl⟩)
  | .str _ => exact .inr (.inl ⟨_, rfl⟩)
  | .num _ _ => exact .inr (.inl ⟨_, rfl⟩)
  | .bool _ => exact .inr (.inl ⟨_, rfl⟩)
  | .null => exact .inr (.inl ⟨_, rfl⟩)

theorem resolve_one (E : Env) (cl : Bool) (v : V) (p : Param) : resolve E cl v [p] = resolve1 E cl v p := by
  unfold resolve; exact if_pos rfl

theorem resolve1_nonslice (E : Env) (cl : Bool) (v : V) (p : Param) (h : p.isSlice = false) :
    resolve1 E cl v p = ((locate E cl v p).1, do let s ← (locate E cl v p).2; pure [s]) := by
  cases p with
  | slice _ => simp [Param.isSlice] at h
  | _ => rfl

theorem resolve1_empty (E : Env) (cl : Bool) (v : V) :
    resolve1 E cl v (.slice []) = ((locate E cl v .nil).1, do let s ← (locate E cl v .nil).2; pure [s]) := by
  unfold resolve1; exact if_pos rfl

theorem resolve1_slice (E : Env) (cl : Bool) (v : V) (q qs) : resolve1 E cl v (.slice (q :: qs)) = resolve E cl v (q :: qs) := by
  conv => lhs; unfold resolve1
  exact if_neg (by simp)

def RCases (v : V) (ps : List Param) (r : R (List Step)) : Prop :=
  (∃ l, r = .ok l) ∨ (∃ e, r = .err e) ∨ (r = .panic ∧ (ps = [] ∨ ∃ m, v.at m = some .nilp))

theorem locate_rcases (E : Env) (v : V) (p q : Param) : RCases v [q] (do let s ← (locate E false v p).2; pure [s]) := by
  rcases locate_cases E v p with ⟨s, h⟩ | ⟨e, h⟩ | ⟨h, rfl⟩
  · rw [h]; exact .inl ⟨_, rfl⟩
  · rw [h]; exact .inr (.inl ⟨_, rfl⟩)
  · rw [h]; exact .inr (.inr ⟨rfl, .inr ⟨[], rfl⟩⟩)

mutual
theorem resolve1_cases (E : Env) : ∀ (p : Param) (v : V), RCases v [p] (resolve1 E false v p).2
  | .slice qs, v => by
    match qs with
    | [] => rw [resolve1_empty]; exact locate_rcases E v .nil _
    | q :: qs =>
      rw [resolve1_slice]
      rcases resolve_cases E (q :: qs) v with h | h | ⟨h, h'⟩
      · exact .inl h
      · exact .inr (.inl h)
      · refine .inr (.inr ⟨h, .inr ?_⟩)
        rcases h' with h' | h'
        · cases h'
        · exact h'
  | .nil, v => locate_rcases E v .nil _
  | .int i, v => locate_rcases E v (.int i) _
  | .uint i, v => locate_rcases E v (.uint i) _
  | .str k, v => locate_rcases E v (.str k) _
  | .other, v => locate_rcases E v .other _
termination_by structural p => p
theorem resolve_cases (E : Env) : ∀ (ps : List Param) (v : V), RCases v ps (resolve E false v ps).2
  | [], v => .inr (.inr ⟨rfl, .inl rfl⟩)
  | p :: rest, v => by
    have h1 := resolve1_cases E p v
    have h2 := resolve_cases E rest
    match rest with
    | [] => rw [resolve_one]; exact h1
    | q :: qs =>
      unfold resolve
      rw [if_neg (by simp)]
      by_cases hp : p.isSlice = true
      · rw [if_pos hp]; exact .inr (.inl ⟨_, rfl⟩)
      · rw [if_neg hp]
        have hl := locate_plain E v p
        rcases locate_cases E v p with ⟨s, h⟩ | ⟨e, h⟩ | ⟨h, rfl⟩
        · have he : locate E false v p = (v, .ok s) := Prod.ext hl h
          rw [he]
          have hc : ∃ c, v.child s = some c := by
            rcases locate_ok h with ⟨_, _, _, _, c, _, _, _, h⟩ | ⟨_, _, _, c, _, _, _, _, h⟩ <;> exact ⟨c, h⟩
          obtain ⟨c, hc⟩ := hc
          simp only [hc]
          rcases h2 c with ⟨l, h⟩ | ⟨e, h⟩ | ⟨h, h'⟩
          · rw [h]; exact .inl ⟨_, rfl⟩
          · rw [h]; exact .inr (.inl ⟨_, rfl⟩)
          · rw [h]
            refine .inr (.inr ⟨rfl, .inr ?_⟩)
            rcases h' with h' | ⟨m, h'⟩
            · cases h'
            · exact ⟨s :: m, by simp [V.at, hc, h']⟩
        · have he : locate E false v p = (v, .err e) := Prod.ext hl h
          rw [he]; exact .inr (.inl ⟨_, rfl⟩)
        · have he : locate E false .nilp p = (.nilp, .panic) := Prod.ext hl h
          rw [he]; exact .inr (.inr ⟨rfl, .inr ⟨[], rfl⟩⟩)
termination_by structural ps => ps
end

theorem addr_not_scalar {v : V} {ps : List Param} {l : List Step} (h : Addr v ps l) : (∃ n kvs low, v = .obj n kvs low) ∨ ∃ xs, v = .arr xs := by
  induction h with
  | slice v q qs l _ ih => exact ih
  | key n kvs low k c h => exact .inl ⟨_, _, _, rfl⟩
  | idx xs p z i h1 h2 => exact .inr ⟨_, rfl⟩
  | keyCons n kvs low k c q qs l h1 _ ih => exact .inl ⟨_, _, _, rfl⟩
  | idxCons xs p z i c q qs l h1 h2 h3 _ ih => exact .inr ⟨_, rfl⟩

theorem addr_resolve {E : Env} {v : V} {ps : List Param} {l : List Step} (h : Addr v ps l) : resolve E false v ps = (v, .ok l) := by
  induction h with
  | slice v q qs l _ ih => 
    have h1 : resolve E false v [.slice (q :: qs)] = resolve1 E false v (.slice (q :: qs)) := by unfold resolve; exact if_pos rfl
    rw [h1]
    unfold resolve1
    exact (if_neg (by simp)).trans ih
  | key n kvs low k c h => simp [resolve, resolve1, locate_key h]
  | idx xs p z i h1 h2 =>
    have := locate_idx (E := E) h1 h2
    cases p <;> simp [intOf] at h1 <;> simp [resolve, resolve1, this]
  | keyCons n kvs low k c q qs l h1 _ ih =>
    unfold resolve
    simp [Param.isSlice, locate_key h1, h1, ih, put_child h1]
  | idxCons xs p z i c q qs l h1 h2 h3 _ ih =>
    unfold resolve
    have := locate_idx (E := E) h1 h2
    have hp : p.isSlice = false := by cases p <;> simp [intOf, Param.isSlice] at h1 ⊢
    simp [hp, this, h3, ih, put_child h3]

theorem addr_at {v : V} {ps : List Param} {l : List Step} (h : Addr v ps l) : ∃ c, v.at l = some c := by
  induction h with
  | slice v q qs l _ ih => exact ih
  | key n kvs low k c h => exact ⟨c, by simp [V.at, h]⟩
  | idx xs p z i h1 h2 => exact ⟨xs[i]'(index_lt h2), by simp [V.at, child_idx, List.getElem?_eq_getElem (index_lt h2)]⟩
  | keyCons n kvs low k c q qs l h1 _ ih => simpa [V.at, h1] using ih
  | idxCons xs p z i c q qs l h1 h2 h3 _ ih => simpa [V.at, h3] using ih

theorem resolve_iff (E : Env) (v : V) (ps : List Param) (l : List Step) : (resolve E false v ps).2 = .ok l ↔ Addr v ps l :=
  ⟨resolve_addr E ps v l, fun h => by rw [addr_resolve h]⟩

/-- `Get` succeeds exactly when the path addresses a node, and returns that node. -/
theorem get_iff (E : Env) (v : V) (ps : List Param) (c : V) : get E v ps = .ok c ↔ ∃ l, Addr v ps l ∧ v.at l = some c := by
  unfold get getC
  rw [resolve_plain]
  simp only [fetch]
  constructor
  · intro h
    match hr : (resolve E false v ps).2 with
    | .ok l =>
      rw [hr] at h
      simp only [R.bind_ok] at h
      match ha : v.at l with
      | some w => rw [ha] at h; simp at h; subst h; exact ⟨l, (resolve_iff E v ps l).1 hr, ha⟩
      | none => rw [ha] at h; simp at h
    | .err e => rw [hr] at h; simp at h
    | .panic => rw [hr] at h; simp at h
    | .diverge => rw [hr] at h; simp at h
  · rintro ⟨l, hl, ha⟩
    rw [(resolve_iff E v ps l).2 hl]
    simp [ha]

theorem addr_det {v : V} {ps : List Param} {l m : List Step} (h : Addr v ps l) (h' : Addr v ps m) : l = m := by
  have E : Env := ⟨fun _ => none, id, id, id, id, id, fun _ => [], fun _ => [], fun _ => none, id, fun _ => 0⟩
  have h1 := (resolve_iff E v ps l).2 h
  have h2 := (resolve_iff E v ps m).2 h'
  rw [h1] at h2
  simpa using h2

end JV
