import Verif.Proofs.ThreadsSame
import Verif.Proofs.Get
import Verif.Proofs.Alike
/-! What Get, Equal and Contains give to code that knows the state of all that it reads. -/
namespace JV
open Spec

/-- the child that a single parameter means -/
def childBy (E : Env) (v : V) (p : Param) : R V :=
  match (locate E false v p).2 with
  | .ok s => match v.child s with
    | some c => .ok c
    | none => .panic
  | .err e => .err e
  | .panic => .panic
  | .diverge => .diverge

theorem get_one (E : Env) (v : V) (p : Param) (h : p.isSlice = false) : get E v [p] = childBy E v p := by
  unfold get getC
  rw [resolve_plain]
  have : (resolve E false v [p]).2 = (do let s ← (locate E false v p).2; pure [s]) := by
    rw [resolve, if_pos (by simp)]
    cases p <;> first | rfl | (cases h)
  dsimp only
  rw [this]
  unfold childBy fetch
  cases (locate E false v p).2 with
  | ok s =>
    show (match v.at [s] with | some c => R.ok c | none => .panic) = _
    unfold V.at
    dsimp only
    cases v.child s <;> rfl
  | err _ | panic | diverge => rfl

theorem get_empty_slice (E : Env) (v : V) : get E v [.slice []] = childBy E v .nil := by
  rw [← get_one E v .nil rfl]
  unfold get getC
  rw [resolve_plain, resolve_plain]
  rfl

theorem get_slice (E : Env) (v : V) (q : Param) (qs : List Param) : get E v [.slice (q :: qs)] = get E v (q :: qs) := by
  unfold get getC
  rw [resolve_plain, resolve_plain]
  congr 1

theorem get_more (E : Env) (v : V) (p q : Param) (qs : List Param) (h : p.isSlice = false) :
    get E v (p :: q :: qs) = match childBy E v p with
      | .ok c => get E c (q :: qs)
      | r => r := by
  unfold get getC
  rw [resolve_plain]
  dsimp only
  rw [resolve, if_neg (by simp), h, if_neg (by simp)]
  have hl := (locate_plain E v p)
  unfold childBy
  generalize locate E false v p = x at hl
  obtain ⟨v', r⟩ := x
  dsimp only at hl
  subst hl
  cases r with
  | ok s =>
    dsimp only
    cases hc : v'.child s with
    | none => rfl
    | some c =>
      dsimp only
      rw [resolve_plain]
      cases (resolve E false c (q :: qs)).2 with
      | ok l =>
        show (match v'.at (s :: l) with | some c => R.ok c | none => .panic) = (match c.at l with | some c => R.ok c | none => .panic)
        rw [V.at, hc]
      | err _ | panic | diverge => rfl
  | err _ | panic | diverge => rfl

/-- the result means the same, nothing was changed -/
def Finding (K : Known) (x : R V) : Known → R Ptr → Prop := fun K' r => K' = K ∧ match x with
  | .ok u => ∃ q, r = .ok q ∧ Hung K q u
  | .err e => r = .err e
  | .panic => r = .panic
  | .diverge => r = .diverge

theorem hungL_at {K : Known} : ∀ {ps : List Ptr} {ts : List V} (n : Nat), HungL K ps ts →
    (∃ p t, ps[n]? = some p ∧ ts[n]? = some t ∧ Hung K p t) ∨ (ps[n]? = none ∧ ts[n]? = none)
  | _, _, _, .nil => .inr ⟨rfl, rfl⟩
  | _, _, 0, .cons p _ t _ h _ => .inl ⟨p, t, rfl, rfl, h⟩
  | _, _, n + 1, .cons _ _ _ _ _ hs => by simpa using hungL_at n hs

theorem hungL_length {K : Known} : ∀ {ps : List Ptr} {ts : List V}, HungL K ps ts → ps.length = ts.length
  | _, _, .nil => rfl
  | _, _, .cons _ _ _ _ _ hs => by simp [hungL_length hs]

theorem hungE_lookup {K : Known} (k : Bytes) : ∀ {es : List HEnt} {ts : List Ent}, HungE K es ts →
    (∃ e t, hlookup k es = some e ∧ lookup k ts = some t ∧ Hung K e.v t.v) ∨ (hlookup k es = none ∧ lookup k ts = none)
  | _, _, .nil => .inr ⟨rfl, rfl⟩
  | _, _, .cons k' i p es t ts h hs => by
    unfold hlookup lookup
    by_cases e : k' = k
    · rw [if_pos e, Ent.key_mk, if_pos e]; exact .inl ⟨_, _, rfl, rfl, h⟩
    · rw [if_neg e, Ent.key_mk, if_neg e]; exact hungE_lookup k hs

theorem predicts_locate (E : Env) {o : Opt} {K : Known} {q : Ptr} {v : V} (p : Param) (h : Hung K q v) :
    Predicts o (Finding K (childBy E v p)) K (aLocate E false q p) := by
  cases h with
  | nil => exact ⟨rfl, rfl⟩
  | leaf a c t ha hc =>
    refine ⟨c, ha, ?_⟩
    cases c <;> cases v <;> first | exact hc.elim | exact ⟨rfl, rfl⟩
  | arr a ps ts ha hs =>
    refine ⟨_, ha, ?_⟩
    show Predicts o _ K (match anyToInt p with | .ok pos => _ | .err e => _ | _ => _)
    unfold childBy locate
    cases anyToInt p with
    | ok pos =>
      dsimp only
      rw [hungL_length hs]
      by_cases hl : posForRead ts.length pos < 0
      · rw [if_pos hl, if_pos hl]; exact ⟨rfl, rfl⟩
      · rw [if_neg hl, if_neg hl]
        rcases hungL_at (posForRead ts.length pos).toNat hs with ⟨c, t, h1, h2, h3⟩ | ⟨h1, h2⟩
        · rw [h1, if_pos (List.getElem?_eq_some_iff.1 h2).1]
          dsimp only [V.child]
          rw [h2]
          exact ⟨rfl, c, rfl, h3⟩
        · rw [h1, if_neg (by have := List.getElem?_eq_none_iff.1 h2; omega)]
          exact ⟨rfl, rfl⟩
    | err _ | panic | diverge => exact ⟨rfl, rfl⟩
  | obj a n es l l' ts ha hs =>
    refine ⟨_, ha, ?_⟩
    show Predicts o _ K (match anyToString p with | .ok key => _ | .err e => _ | _ => _)
    unfold childBy locate
    cases anyToString p with
    | ok key =>
      dsimp only
      unfold aFind findKey
      rcases hungE_lookup key hs with ⟨e, t, h1, h2, h3⟩ | ⟨h1, h2⟩
      · rw [h1, h2]
        dsimp only [V.child, Option.isSome]
        rw [if_pos rfl]
        dsimp only [V.child]
        rw [h2]
        exact ⟨rfl, e.v, rfl, h3⟩
      · rw [h1, h2]
        exact ⟨rfl, rfl⟩
    | err _ | panic | diverge => exact ⟨rfl, rfl⟩

mutual
theorem predicts_get1 (E : Env) {o : Opt} {K : Known} : ∀ (p : Param) {q : Ptr} {v : V}, Hung K q v → Predicts o (Finding K (get E v [p])) K (aGet1 E false q p)
  | p, q, v, h => by
    by_cases hp : p.isSlice
    · cases p <;> first | cases hp | skip
      next qs =>
      cases qs with
      | nil => rw [get_empty_slice, aGet1, if_pos (by rfl)]; exact predicts_locate E .nil h
      | cons r rs => rw [get_slice, aGet1, if_neg (by simp)]; exact predicts_get E (r :: rs) h
    · rw [get_one E v p (by simpa using hp)]
      have : aGet1 E false q p = aLocate E false q p := by cases p <;> first | rfl | exact absurd rfl hp
      rw [this]
      exact predicts_locate E p h
theorem predicts_get (E : Env) {o : Opt} {K : Known} : ∀ (ps : List Param) {q : Ptr} {v : V}, Hung K q v → Predicts o (Finding K (get E v ps)) K (aGet E false q ps)
  | [], q, v, h => ⟨rfl, rfl⟩
  | [p], q, v, h => by rw [aGet, if_pos (by simp)]; exact predicts_get1 E p h
  | p :: r :: rs, q, v, h => by
    rw [aGet, if_neg (by simp)]
    by_cases hp : p.isSlice
    · rw [if_pos hp]
      have : get E v (p :: r :: rs) = .err .multipleParam := by
        unfold get getC
        rw [resolve, if_neg (by simp), if_pos hp]
        rfl
      rw [this]
      exact ⟨rfl, rfl⟩
    · rw [if_neg hp, get_more E v p r rs (by simpa using hp)]
      have ih := fun {q : Ptr} {v : V} (h : Hung K q v) => predicts_get E (o := o) (r :: rs) h
      refine predicts_andThen (fun K' x hx => ?_) (predicts_locate E (o := o) p h)
      obtain ⟨rfl, hx⟩ := hx
      generalize childBy E v p = y at hx
      cases y with
      | ok u => obtain ⟨q', rfl, hh⟩ := hx; exact ih hh
      | err e => cases hx; exact ⟨rfl, rfl⟩
      | panic => cases hx; exact ⟨rfl, rfl⟩
      | diverge => cases hx; exact ⟨rfl, rfl⟩
end

theorem predicts_equal (D : DecFn) {o : Opt} {K : Known} {p q : Ptr} {t u : V} {n : Nat} (h1 : sizeOf t ≤ n) (h2 : sizeOf u ≤ n) (hp : Hung K p t) (hq : Hung K q u) :
    Predicts o (fun K' r => K' = K ∧ r = .ok (equal D (noIndex t) (noIndex u))) K (aEqual D n p q) :=
  predicts_onOk (Q := fun K' x => K' = K ∧ x = noIndex t) (predicts_read t n h1 hp) fun _ _ ⟨e1, e2⟩ =>
    predicts_onOk (Q := fun K' x => K' = K ∧ x = noIndex u) (by rw [e1]; exact predicts_read u n h2 hq) fun _ _ ⟨e3, e4⟩ => ⟨e3, by rw [e2, e4]⟩

theorem predicts_contains (E : Env) (D : DecFn) {o : Opt} {K : Known} {p q : Ptr} {t u : V} {n : Nat} (path : List Param) (h1 : sizeOf t ≤ n) (h2 : sizeOf u ≤ n)
    (hp : Hung K p t) (hq : Hung K q u) : Predicts o (fun K' r => K' = K ∧ r = containsAt E D (noIndex t) (noIndex u) path) K (aContains E D n p q path) :=
  predicts_onOk (Q := fun K' x => K' = K ∧ x = noIndex t) (predicts_read t n h1 hp) fun _ _ ⟨e1, e2⟩ =>
    predicts_onOk (Q := fun K' x => K' = K ∧ x = noIndex u) (by rw [e1]; exact predicts_read u n h2 hq) fun _ _ ⟨e3, e4⟩ => ⟨e3, by rw [e2, e4]⟩

theorem get_at {E : Env} {t u : V} {ps : List Param} (h : get E t ps = .ok u) : ∃ l, t.at l = some u := by
  unfold get getC fetch at h
  rw [resolve_plain] at h
  dsimp only at h
  cases hr : (resolve E false t ps).2 with
  | ok l =>
    rw [hr] at h
    replace h : (match t.at l with | some c => R.ok c | none => .panic) = .ok u := h
    split at h
    · next hc => cases h; exact ⟨l, hc⟩
    · cases h
  | err _ | panic | diverge => rw [hr] at h; cases h

theorem noIndexL_mem : ∀ {ts : List V} {t : V}, noIndexL ts = ts → t ∈ ts → noIndex t = t
  | x :: xs, t, h, hm => by
    simp only [noIndexL, List.cons.injEq] at h
    rcases List.mem_cons.1 hm with rfl | hm
    · exact h.1
    · exact noIndexL_mem h.2 hm

theorem noIndexM_lookup {k : Bytes} : ∀ {ts : List Ent} {t : Ent}, noIndexM ts = ts → lookup k ts = some t → noIndex t.v = t.v
  | .mk k' i v :: xs, t, h, hm => by
    simp only [noIndexM, List.cons.injEq, Ent.mk.injEq, true_and] at h
    unfold lookup at hm
    split at hm
    · cases hm; exact h.1
    · exact noIndexM_lookup h.2 hm

theorem lookup_sizeOf {k : Bytes} : ∀ {ts : List Ent} {t : Ent}, lookup k ts = some t → sizeOf t.v < sizeOf ts
  | .mk k' i v :: xs, t, hm => by
    unfold lookup at hm
    split at hm
    · cases hm; simp; omega
    · have := lookup_sizeOf hm; simp; omega

theorem child_part {t c : V} {s : Step} (h : t.child s = some c) : (noIndex t = t → noIndex c = c) ∧ sizeOf c < sizeOf t := by
  cases t <;> cases s <;> first | (simp [V.child] at h; done) | skip
  · next xs i =>
    have hm : c ∈ xs := List.mem_of_getElem? h
    refine ⟨fun hn => noIndexL_mem (by simpa [noIndex] using hn) hm, ?_⟩
    have := List.sizeOf_lt_of_mem hm
    simp; omega
  · next n kvs low k =>
    simp only [V.child, Option.map_eq_some_iff] at h
    obtain ⟨e, he, rfl⟩ := h
    refine ⟨fun hn => noIndexM_lookup (by simp only [noIndex, V.obj.injEq] at hn; exact hn.2.1) he, ?_⟩
    have := lookup_sizeOf he
    simp; omega

theorem at_part : ∀ {l : List Step} {t u : V}, t.at l = some u → (noIndex t = t → noIndex u = u) ∧ sizeOf u ≤ sizeOf t
  | [], t, u, h => by cases h; exact ⟨id, Nat.le_refl _⟩
  | s :: l, t, u, h => by
    unfold V.at at h
    split at h
    · next hc =>
      have h1 := child_part hc
      have h2 := at_part h
      exact ⟨fun hn => h2.1 (h1.1 hn), by omega⟩
    · cases h

end JV
