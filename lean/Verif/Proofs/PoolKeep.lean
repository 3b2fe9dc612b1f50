import Verif.Model.PoolKeep
import Verif.Spec.PoolKeep
import Verif.Proofs.Pool
import Verif.Model.Import
/-! Helper lemmas for C101. -/
namespace JV
open Spec

/-! ### positions -/

theorem At.append {v x y : NV} {p q : List Nat} (h : At v p x) (h' : At x q y) : At v (p ++ q) y := by
  induction h with
  | here v => exact h'
  | elem h _ ih => exact .elem h (ih h')
  | member h _ ih => exact .member h (ih h')

theorem At.split {v y : NV} {p q : List Nat} (h : At v (p ++ q) y) : ∃ x, At v p x ∧ At x q y := by
  induction p generalizing v with
  | nil => exact ⟨v, .here v, h⟩
  | cons i p ih =>
    cases h with
    | elem h hp => obtain ⟨x, h1, h2⟩ := ih hp; exact ⟨x, .elem h h1, h2⟩
    | member h hp => obtain ⟨x, h1, h2⟩ := ih hp; exact ⟨x, .member h h1, h2⟩

theorem At.unique {v x y : NV} {p : List Nat} (h : At v p x) (h' : At v p y) : x = y := by
  induction h with
  | here v => cases h'; rfl
  | elem h _ ih => cases h' with | elem g hp => rw [h] at g; cases g; exact ih hp
  | member h _ ih => cases h' with | member g hp => rw [h] at g; cases g; exact ih hp

theorem At.leaf {n : Node} {w : V} {q : List Nat} {x : NV} (h : At (.leaf n w) q x) : q = [] := by cases h; rfl

theorem keeps_below {v x : NV} {p q : List Nat} (r : List Nat) (hk : Keeps v p (.value q)) (h : At v (q ++ r) x) :
    Keeps v p (.value (q ++ r)) := by
  induction r generalizing q with
  | nil => simpa using hk
  | cons i r ih =>
    have e : q ++ i :: r = (q ++ [i]) ++ r := by simp
    rw [e] at h ⊢
    obtain ⟨y, h1, -⟩ := At.split h
    exact ih (.child hk h1) h

/-- what is kept of the values, exactly -/
theorem keeps_value {v : NV} {p q : List Nat} (hp : ∃ x, At v p x) : Keeps v p (.value q) ↔
    (∃ y, At v q y) ∧ (p <+: q ∨ (ArenaBelow v p ∧ ∃ s, s <+: q ∧ Has v s InArena)) := by
  constructor
  · intro h
    suffices ∀ t, Keeps v p t → match t with
        | .value q => (∃ y, At v q y) ∧ (p <+: q ∨ (ArenaBelow v p ∧ ∃ s, s <+: q ∧ Has v s InArena))
        | .arena => ArenaBelow v p
        | .text => True from this _ h
    intro t h
    induction h with
    | held h => exact ⟨⟨_, h⟩, .inl (List.prefix_refl _)⟩
    | child _ h ih =>
      refine ⟨⟨_, h⟩, ?_⟩
      rcases ih.2 with g | ⟨g, s, hs, hh⟩
      · exact .inl (g.trans (List.prefix_append _ _))
      · exact .inr ⟨g, s, hs.trans (List.prefix_append _ _), hh⟩
    | @arena q x i _ h hn ih =>
      rcases ih.2 with g | ⟨g, -⟩
      · exact ⟨q, g, x, h, i, hn⟩
      · exact g
    | slot _ h hn ih => exact ⟨⟨_, h⟩, .inr ⟨ih, _, List.prefix_refl _, _, h, _, hn⟩⟩
    | text => trivial
  · rintro ⟨⟨y, hy⟩, ⟨r, rfl⟩ | ⟨⟨r, ⟨r', rfl⟩, x, hx, i, hi⟩, s, ⟨s', rfl⟩, z, hz, j, hj⟩⟩
    · obtain ⟨x, hx⟩ := hp
      exact keeps_below r (.held hx) hy
    · obtain ⟨x0, hx0⟩ := hp
      have h1 : Keeps v p .arena := .arena (keeps_below r' (.held hx0) hx) hx hi
      exact keeps_below s' (.slot h1 hz hj) hy

theorem inText_iff (x : NV) : x.inText = true ↔ Wordy x := by
  cases x with
  | leaf n w => cases w <;> simp [NV.inText, Wordy]
  | arr n xs => simp [NV.inText, Wordy]
  | obj n c kvs => cases kvs <;> simp [NV.inText, Wordy]

theorem keeps_text {v : NV} {p : List Nat} : Keeps v p .text ↔ ∃ q, Keeps v p (.value q) ∧ Has v q Wordy := by
  constructor
  · intro h
    cases h with
    | text hk h ht => exact ⟨_, hk, _, h, (inText_iff _).mp ht⟩
  · rintro ⟨q, hk, x, hx, hw⟩
    exact .text hk hx ((inText_iff _).mpr hw)

/-! ### which values of a parsed document are in the arena -/

/-- Values as the parser makes them: only numbers, arrays and objects are in the arena; under `F` all of them are. -/
inductive Made (F : Prop) : NV → Prop where
  | leaf {n : Node} {w : V} (h1 : (∃ i, n = .slot i) → ∃ s m, w = .num s m) (h2 : F → (∃ s m, w = .num s m) → ∃ i, n = .slot i)
      (h3 : deepCopy w = w) : Made F (.leaf n w)
  | arr {n : Node} {xs : List NV} (h : F → ∃ i, n = .slot i) (hx : ∀ x ∈ xs, Made F x) : Made F (.arr n xs)
  | obj {n : Node} {c : BitVec 32} {kvs : List (Bytes × BitVec 32 × NV)} (h : F → ∃ i, n = .slot i) (hx : ∀ e ∈ kvs, Made F e.2.2) :
      Made F (.obj n c kvs)

theorem Made.weaken {F G : Prop} (hg : G → F) {v : NV} (h : Made F v) : Made G v := by
  induction h with
  | leaf h1 h2 h3 => exact .leaf h1 (fun g => h2 (hg g)) h3
  | arr h _ ih => exact .arr (fun g => h (hg g)) ih
  | obj h _ ih => exact .obj (fun g => h (hg g)) ih

theorem Made.at {F : Prop} {v x : NV} {q : List Nat} (h : Made F v) (ha : At v q x) : Made F x := by
  induction ha with
  | here v => exact h
  | elem g _ ih => cases h with | arr _ hx => exact ih (hx _ (List.mem_of_getElem? g))
  | member g _ ih => cases h with | obj _ hx => exact ih (hx _ (List.mem_of_getElem? g))

/-- the requests made so far fit in the arena -/
def Pool.fits (p : Pool) : Prop := p.actual ≤ p.count

/-- the outcome of a loop started with the pool `p` for a value at node `n` -/
def PoolGood (p : Pool) (n : Node) (r : PR (NV × Bytes)) : Prop :=
  r.2.count = p.count ∧ p.actual ≤ r.2.actual ∧ ∀ v t, r.1 = .ok (v, t) → Made r.2.fits v ∧ nodeOf v = n

theorem good_fail {p : Pool} {n : Node} {r : R (NV × Bytes)} (h : ∀ x, r ≠ .ok x) : PoolGood p n (r, p) :=
  ⟨rfl, Nat.le_refl _, fun v t e => absurd e (h _)⟩

theorem PoolGood.from {p q : Pool} {n : Node} {r : PR (NV × Bytes)} (hc : q.count = p.count) (ha : p.actual ≤ q.actual) (h : PoolGood q n r) :
    PoolGood p n r := ⟨h.1.trans hc, Nat.le_trans ha h.2.1, h.2.2⟩

/-- a later pool that fits fitted before -/
theorem fits_before {p q : Pool} (hc : q.count = p.count) (ha : p.actual ≤ q.actual) (h : q.fits) : p.fits := by
  unfold Pool.fits at *; omega

theorem PoolGood.andThen {p q : Pool} {n m : Node} {x : PR (NV × Bytes)} {k : NV × Bytes → Pool → PR (NV × Bytes)}
    (hc : q.count = p.count) (ha : p.actual ≤ q.actual) (h : PoolGood q m x)
    (hk : ∀ v t p', p'.count = p.count → p.actual ≤ p'.actual → Made p'.fits v → PoolGood p' n (k (v, t) p')) :
    PoolGood p n (x.andThen k) := by
  obtain ⟨r, p'⟩ := x
  obtain ⟨h1, h2, h3⟩ := h
  have e1 : p'.count = p.count := h1.trans hc
  have e2 : p.actual ≤ p'.actual := Nat.le_trans ha h2
  cases r with
  | ok y => exact PoolGood.from e1 e2 (hk y.1 y.2 p' e1 e2 (h3 _ _ rfl).1)
  | err e => exact ⟨e1, e2, by intro v t e; cases e⟩
  | panic => exact ⟨e1, e2, by intro v t e; cases e⟩
  | diverge => exact ⟨e1, e2, by intro v t e; cases e⟩

theorem get_good (p : Pool) : p.get.2.count = p.count ∧ p.get.2.actual = p.actual + 1 ∧ (p.get.2.fits → ∃ i, p.get.1 = .slot i) := by
  unfold Pool.get Pool.fits
  split
  · exact ⟨rfl, rfl, fun _ => ⟨_, rfl⟩⟩
  · refine ⟨rfl, rfl, fun h => ?_⟩
    simp only [Pool.global] at h; omega

theorem scalar_copy {E : Env} {f : Nat} {c : UInt8} {t r : Bytes} {v : V} (h : parseScalar E f c t = .ok (some (v, r))) : deepCopy v = v := by
  unfold parseScalar at h
  split at h
  · cases hp : parseNumber E (c :: t) <;> rw [hp] at h <;> cases h <;> rfl
  · split at h
    · cases hp : strLoop f t [] <;> rw [hp] at h <;> cases h <;> rfl
    · split at h
      · cases hp : parseLit (c :: t) litTrue .notValidBoolValue .notValidBoolValue <;> rw [hp] at h <;> cases h <;> rfl
      · split at h
        · cases hp : parseLit (c :: t) litFalse .notValidBoolValue .notValidBoolValue <;> rw [hp] at h <;> cases h <;> rfl
        · split at h
          · cases hp : parseLit (c :: t) litNull .notValidNullValue .notValidBoolValue <;> rw [hp] at h <;> cases h <;> rfl
          · cases h

theorem scalar_good (E : Env) (f : Nat) (c : UInt8) (t : Bytes) (p : Pool) :
    (∃ r, parseScalarN E f c t p = (r, p) ∧ ∀ x, r ≠ .ok (some x)) ∨
    (∃ v t' p', parseScalarN E f c t p = (.ok (some (v, t')), p') ∧ p'.count = p.count ∧ p.actual ≤ p'.actual ∧ Made p'.fits v ∧
      ∃ n w, v = .leaf n w) := by
  unfold parseScalarN
  match hs : parseScalar E f c t with
  | .ok (some (v, t')) =>
    right
    have hg := get_good p
    cases v with
    | num src n => exact ⟨_, t', _, rfl, hg.1, by omega, .leaf (fun _ => ⟨_, _, rfl⟩) (fun h _ => hg.2.2 h) (scalar_copy hs), _, _, rfl⟩
    | _ => exact ⟨_, t', _, rfl, rfl, Nat.le_refl _, .leaf (fun ⟨i, h⟩ => by cases h) (fun _ ⟨s, m, h⟩ => by cases h) (scalar_copy hs), _, _, rfl⟩
  | .ok none => exact .inl ⟨_, rfl, by simp⟩
  | .err e => exact .inl ⟨_, rfl, by simp⟩
  | .panic => exact .inl ⟨_, rfl, by simp⟩
  | .diverge => exact .inl ⟨_, rfl, by simp⟩

theorem assignN_mem {e x : Bytes × BitVec 32 × NV} {l : List (Bytes × BitVec 32 × NV)} (h : x ∈ assignN e l) : x = e ∨ x ∈ l := by
  induction l with
  | nil => simp [assignN] at h; exact .inl h
  | cons a l ih =>
    simp only [assignN] at h
    split at h
    · rcases List.mem_cons.mp h with h | h
      · exact .inl h
      · exact .inr (List.mem_cons_of_mem _ h)
    · rcases List.mem_cons.mp h with h | h
      · exact .inr (h ▸ List.mem_cons_self)
      · rcases ih h with h | h
        · exact .inl h
        · exact .inr (List.mem_cons_of_mem _ h)

theorem loops_good (E : Env) (f : Nat) :
    (∀ s n acc p, (p.fits → ∃ i, n = .slot i) → (∀ x ∈ acc, Made p.fits x) → PoolGood p n (arrLoopN E f s n acc p)) ∧
    (∀ s n st p, (p.fits → ∃ i, n = .slot i) → (∀ e ∈ st.kvs, Made p.fits e.2.2) → PoolGood p n (objLoopN E f s n st p)) := by
  induction f with
  | zero => exact ⟨fun s n acc p _ _ => by simp only [arrLoopN]; exact good_fail (by simp), fun s n st p _ _ => by simp only [objLoopN]; exact good_fail (by simp)⟩
  | succ f ih =>
    obtain ⟨iha, iho⟩ := ih
    constructor
    · intro s n acc p hn hacc
      simp only [arrLoopN]
      have hnext : ∀ v t (p' : Pool), p'.count = p.count → p.actual ≤ p'.actual → Made p'.fits v → PoolGood p' n (arrLoopN E f t n (acc ++ [v]) p') := by
        intro v t p' hc ha hv
        have hb := fits_before hc ha
        refine iha t n _ p' (fun h => hn (hb h)) (fun x hx => ?_)
        rcases List.mem_append.mp hx with h | h
        · exact (hacc x h).weaken hb
        · simp at h; subst h; exact hv
      match h : skipBlanks s with
      | [] => exact good_fail (by simp)
      | c :: t =>
        simp only
        have hg := get_good p
        split
        · exact ⟨rfl, Nat.le_refl _, by
            intro v t' e
            simp only [R.ok.injEq, Prod.mk.injEq] at e
            rw [← e.1]; exact ⟨.arr hn hacc, rfl⟩⟩
        · split
          · exact iha t n acc p hn hacc
          · split
            · exact PoolGood.andThen (m := p.get.1) hg.1 (by omega) (iho _ _ _ _ hg.2.2 (by intro e he; cases he)) (fun v t p' => hnext v t p')
            · split
              · exact PoolGood.andThen (m := p.get.1) hg.1 (by omega) (iha _ _ _ _ hg.2.2 (by intro e he; cases he)) (fun v t p' => hnext v t p')
              · rcases scalar_good E (f+1) c t p with ⟨r, hr, hx⟩ | ⟨v, t', p', hr, hc, ha, hv, -⟩
                · rw [hr]
                  match r with
                  | .ok none => exact good_fail (by simp)
                  | .ok (some x) => exact absurd rfl (hx x)
                  | .err e => exact good_fail (by simp)
                  | .panic => exact good_fail (by simp)
                  | .diverge => exact good_fail (by simp)
                · rw [hr]
                  exact PoolGood.from hc ha (hnext v t' p' hc ha hv)
    · intro s n st p hn hkvs
      simp only [objLoopN]
      have hnext : ∀ k v t (p' : Pool), p'.count = p.count → p.actual ≤ p'.actual → Made p'.fits v →
          PoolGood p' n (objLoopN E f t n (setMemberN st k v) p') := by
        intro k v t p' hc ha hv
        have hb := fits_before hc ha
        refine iho t n _ p' (fun h => hn (hb h)) (fun x hx => ?_)
        rcases assignN_mem hx with h | h
        · rw [h]; exact hv
        · exact (hkvs x h).weaken hb
      match h : skipBlanks s with
      | [] => exact good_fail (by simp)
      | c :: t =>
        simp only
        have hg := get_good p
        split
        · split
          · exact good_fail (by simp)
          · exact ⟨rfl, Nat.le_refl _, by
              intro v t' e
              simp only [R.ok.injEq, Prod.mk.injEq] at e
              rw [← e.1]; exact ⟨.obj hn hkvs, rfl⟩⟩
        · split
          · split
            · exact good_fail (by simp)
            · exact iho t n st p hn hkvs
          · split
            · split
              · exact good_fail (by simp)
              · split
                · exact good_fail (by simp)
                · exact iho t n _ p hn hkvs
            · split
              · split
                · split
                  · exact good_fail (by simp)
                  · split
                    · refine PoolGood.from (q := p.global.2) rfl (Nat.le_refl _) (hnext _ _ _ p.global.2 rfl (Nat.le_refl _) ?_)
                      exact .leaf (fun ⟨i, h⟩ => by cases h) (fun _ ⟨s, m, h⟩ => by cases h) rfl
                    all_goals exact good_fail (by simp)
                · split
                  · exact iho _ n _ p hn hkvs
                  all_goals exact good_fail (by simp)
              · split
                · split
                  · exact good_fail (by simp)
                  · split
                    · exact good_fail (by simp)
                    · split
                      · exact PoolGood.andThen (m := p.get.1) hg.1 (by omega) (iho _ _ _ _ hg.2.2 (by intro e he; cases he)) (fun v t p' => hnext _ v t p')
                      · split
                        · exact PoolGood.andThen (m := p.get.1) hg.1 (by omega) (iha _ _ _ _ hg.2.2 (by intro e he; cases he)) (fun v t p' => hnext _ v t p')
                        · rcases scalar_good E (f+1) c t p with ⟨r, hr, hx⟩ | ⟨v, t', p', hr, hc, ha, hv, -⟩
                          · rw [hr]
                            match r with
                            | .ok none => exact good_fail (by simp)
                            | .ok (some x) => exact absurd rfl (hx x)
                            | .err e => exact good_fail (by simp)
                            | .panic => exact good_fail (by simp)
                            | .diverge => exact good_fail (by simp)
                          · rw [hr]
                            exact PoolGood.from hc ha (hnext _ v t' p' hc ha hv)
                · exact good_fail (by simp)

/-- one parse: how its values are made; the whole document is a scalar or the first value taken from the pool -/
theorem parseValueN_good (E : Env) (f : Nat) (c : UInt8) (t : Bytes) (p : Pool) :
    (parseValueN E f c t p).2.count = p.count ∧ ∀ v t', (parseValueN E f c t p).1 = .ok (v, t') →
      Made (parseValueN E f c t p).2.fits v ∧ ((∃ n w, v = .leaf n w) ∨ nodeOf v = p.get.1) := by
  have hg := get_good p
  unfold parseValueN
  split
  · have h := (loops_good E f).2 t p.get.1 {} p.get.2 hg.2.2 (by intro e he; cases he)
    exact ⟨h.1.trans hg.1, fun v t' e => ⟨(h.2.2 v t' e).1, .inr (h.2.2 v t' e).2⟩⟩
  · split
    · have h := (loops_good E f).1 t p.get.1 [] p.get.2 hg.2.2 (by intro e he; cases he)
      exact ⟨h.1.trans hg.1, fun v t' e => ⟨(h.2.2 v t' e).1, .inr (h.2.2 v t' e).2⟩⟩
    · rcases scalar_good E f c t p with ⟨r, hr, hx⟩ | ⟨v, t', p', hr, hc, ha, hv, hl⟩
      · rw [hr]
        match r with
        | .ok none => exact ⟨rfl, fun v t e => by cases e⟩
        | .ok (some x) => exact absurd rfl (hx x)
        | .err e => exact ⟨rfl, fun v t e => by cases e⟩
        | .panic => exact ⟨rfl, fun v t e => by cases e⟩
        | .diverge => exact ⟨rfl, fun v t e => by cases e⟩
      · rw [hr]
        refine ⟨hc, fun w t'' e => ?_⟩
        simp only [PR.andThen, R.ok.injEq, Prod.mk.injEq] at e
        rw [← e.1]
        exact ⟨hv, .inl hl⟩

theorem parseIn_good {E : Env} {cnt : Nat} {b : Bytes} {v : NV} (h : (parseIn E cnt b).1 = .ok v) :
    Made ((parseIn E cnt b).2.actual ≤ cnt) v ∧ ((∃ n w, v = .leaf n w) ∨ nodeOf v = (Pool.new cnt).get.1) := by
  revert h
  unfold parseIn unmarshalWithIterN
  match skipBlanks b with
  | [] => intro h; cases h
  | c :: t =>
    simp only
    have hg := parseValueN_good E (b.length + 1) c t (Pool.new cnt)
    revert hg
    match parseValueN E (b.length + 1) c t (Pool.new cnt) with
    | (r, p) =>
      intro ⟨h1, h2⟩
      match r with
      | .ok (v', t') =>
        simp only [PR.andThen]
        split
        · intro e
          simp only [R.ok.injEq] at e
          subst e
          obtain ⟨h3, h4⟩ := h2 _ _ rfl
          refine ⟨h3.weaken ?_, h4⟩
          intro h
          have hc : p.count = cnt := h1
          have ha : p.actual ≤ cnt := h
          show p.actual ≤ p.count
          omega
        · intro e; cases e
      | .err e => intro h; cases h
      | .panic => intro h; cases h
      | .diverge => intro h; cases h

/-! ### copies -/

mutual
theorem copy_at : ∀ (x : NV) (h : Nat) (q : List Nat) (y : NV), At (x.copy h).1 q y → ∃ z m, At x q z ∧ y = (z.copy m).1
  | .leaf n w, h, q, y, ha => by
    simp only [NV.copy] at ha
    cases ha
    exact ⟨_, h, .here _, by simp [NV.copy]⟩
  | .arr n xs, h, q, y, ha => by
    simp only [NV.copy] at ha
    cases ha with
    | here => exact ⟨.arr n xs, h, .here _, by simp [NV.copy]⟩
    | elem g hp =>
      obtain ⟨x, m, hx, rfl⟩ := copyL_at xs (h + 1) _ _ g
      obtain ⟨z, m', hz, e⟩ := hx.2 _ _ hp
      exact ⟨z, m', .elem hx.1 hz, e⟩
  | .obj n c kvs, h, q, y, ha => by
    simp only [NV.copy] at ha
    cases ha with
    | here => exact ⟨.obj n c kvs, h, .here _, by simp [NV.copy]⟩
    | member g hp =>
      obtain ⟨x, m, hx, rfl⟩ := copyM_at kvs (h + 1) _ _ _ _ g
      obtain ⟨z, m', hz, e⟩ := hx.2 _ _ hp
      exact ⟨z, m', .member hx.1 hz, e⟩
theorem copyL_at : ∀ (xs : List NV) (h : Nat) (i : Nat) (y : NV), (NV.copyL xs h).1[i]? = some y →
    ∃ x m, (xs[i]? = some x ∧ ∀ q z, At (x.copy m).1 q z → ∃ w m', At x q w ∧ z = (w.copy m').1) ∧ y = (x.copy m).1
  | [], h, i, y, g => by simp [NV.copyL] at g
  | x :: xs, h, i, y, g => by
    simp only [NV.copyL] at g
    cases i with
    | zero => simp at g; subst g; exact ⟨x, h, ⟨rfl, fun q z hz => copy_at x h q z hz⟩, rfl⟩
    | succ i => simp at g; simpa using copyL_at xs _ i y g
theorem copyM_at : ∀ (kvs : List (Bytes × BitVec 32 × NV)) (h : Nat) (i : Nat) (k : Bytes) (d : BitVec 32) (y : NV),
    (NV.copyM kvs h).1[i]? = some (k, d, y) →
    ∃ x m, (kvs[i]? = some (k, d, x) ∧ ∀ q z, At (x.copy m).1 q z → ∃ w m', At x q w ∧ z = (w.copy m').1) ∧ y = (x.copy m).1
  | [], h, i, k, d, y, g => by simp [NV.copyM] at g
  | (k', d', x) :: xs, h, i, k, d, y, g => by
    simp only [NV.copyM] at g
    cases i with
    | zero =>
      simp at g
      obtain ⟨rfl, rfl, rfl⟩ := g
      exact ⟨x, h, ⟨rfl, fun q z hz => copy_at x h q z hz⟩, rfl⟩
    | succ i => simp at g; simpa using copyM_at xs _ i k d y g
end

theorem copyL_get {xs : List NV} {i : Nat} {x : NV} (g : xs[i]? = some x) (h : Nat) : ∃ m, (NV.copyL xs h).1[i]? = some (x.copy m).1 := by
  induction xs generalizing i h with
  | nil => simp at g
  | cons a xs ih =>
    simp only [NV.copyL]
    cases i with
    | zero => simp at g; subst g; exact ⟨h, rfl⟩
    | succ i => simp at g; simpa using ih g _

theorem copyM_get {kvs : List (Bytes × BitVec 32 × NV)} {i : Nat} {k : Bytes} {d : BitVec 32} {x : NV} (g : kvs[i]? = some (k, d, x)) (h : Nat) :
    ∃ m, (NV.copyM kvs h).1[i]? = some (k, d, (x.copy m).1) := by
  induction kvs generalizing i h with
  | nil => simp at g
  | cons a xs ih =>
    obtain ⟨k', d', a⟩ := a
    simp only [NV.copyM]
    cases i with
    | zero =>
      simp at g
      obtain ⟨rfl, rfl, rfl⟩ := g
      exact ⟨h, rfl⟩
    | succ i => simp at g; simpa using ih g _

theorem at_copy {x z : NV} {q : List Nat} (ha : At x q z) (h : Nat) : ∃ m, At (x.copy h).1 q (z.copy m).1 := by
  induction ha generalizing h with
  | here v => exact ⟨h, .here _⟩
  | elem g _ ih =>
    simp only [NV.copy]
    obtain ⟨m, hm⟩ := copyL_get g (h + 1)
    obtain ⟨m', h'⟩ := ih m
    exact ⟨m', .elem hm h'⟩
  | member g _ ih =>
    simp only [NV.copy]
    obtain ⟨m, hm⟩ := copyM_get g (h + 1)
    obtain ⟨m', h'⟩ := ih m
    exact ⟨m', .member hm h'⟩

theorem copy_wordy (x : NV) (h : Nat) : Wordy (x.copy h).1 ↔ Wordy x := by
  cases x with
  | leaf n w => simp [NV.copy, Wordy]
  | arr n xs => simp [NV.copy, Wordy]
  | obj n c kvs => cases kvs <;> simp [NV.copy, NV.copyM, Wordy]

mutual
theorem copy_toV : ∀ (x : NV) (h : Nat), (∀ q n w, At x q (.leaf n w) → deepCopy w = w) → (x.copy h).1.toV = deepCopy x.toV
  | .leaf n w, h, hx => by simp only [NV.copy, NV.toV]; exact (hx [] n w (.here _)).symm
  | .arr n xs, h, hx => by
    simp only [NV.copy, NV.toV, deepCopy]
    rw [copyL_toV xs (h + 1) (fun i x hi q n w ha => hx (i :: q) n w (.elem hi ha))]
  | .obj n c kvs, h, hx => by
    simp only [NV.copy, NV.toV, deepCopy]
    rw [copyM_toV kvs (h + 1) (fun i k d x hi q n w ha => hx (i :: q) n w (.member hi ha))]
theorem copyL_toV : ∀ (xs : List NV) (h : Nat), (∀ (i : Nat) (x : NV), xs[i]? = some x → ∀ q n w, At x q (.leaf n w) → deepCopy w = w) →
    NV.toVs (NV.copyL xs h).1 = deepCopyL (NV.toVs xs)
  | [], h, hx => rfl
  | x :: xs, h, hx => by
    simp only [NV.copyL, NV.toVs, deepCopyL]
    rw [copy_toV x h (hx 0 x rfl), copyL_toV xs _ (fun i y hi => hx (i + 1) y (by simpa using hi))]
theorem copyM_toV : ∀ (kvs : List (Bytes × BitVec 32 × NV)) (h : Nat),
    (∀ (i : Nat) (k : Bytes) (d : BitVec 32) (x : NV), kvs[i]? = some (k, d, x) → ∀ q n w, At x q (.leaf n w) → deepCopy w = w) →
    NV.toEnts (NV.copyM kvs h).1 = deepCopyE (NV.toEnts kvs)
  | [], h, hx => rfl
  | (k, d, x) :: kvs, h, hx => by
    simp only [NV.copyM, NV.toEnts, deepCopyE, deepCopyEnt]
    rw [copy_toV x h (hx 0 k d x rfl), copyM_toV kvs _ (fun i k' d' y hi => hx (i + 1) k' d' y (by simpa using hi))]
end

theorem copy_fresh (x : NV) (h : Nat) : nodeOf (x.copy h).1 = .fresh h := by cases x <;> simp [NV.copy, nodeOf]

end JV
