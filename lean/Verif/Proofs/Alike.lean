import Verif.Spec.Alike
import Verif.Proofs.Modify
import Verif.Proofs.Nondet
/-! Reading and changing values that are alike. -/
namespace JV
open Spec

variable {E : Env} {L : V → V → Prop}

/-- null, a boolean, a string or a number -/
def Basic : V → Prop
  | .nilp => False
  | .notExist => False
  | .arr _ => False
  | .obj _ _ _ => False
  | _ => True

theorem alike_cases (hL : LeafRel L) {v w : V} (h : Alike L v w) :
    (v = .nilp ∧ w = .nilp) ∨ (v = .notExist ∧ w = .notExist) ∨ (Basic v ∧ Basic w) ∨
    (∃ xs ys, v = .arr xs ∧ w = .arr ys ∧ Al (Alike L) xs ys) ∨
    (∃ n kvs low n' kvs' low', v = .obj n kvs low ∧ w = .obj n' kvs' low' ∧ (keys kvs).Nodup ∧ (keys kvs').Nodup ∧
      (∀ k, (lookup k kvs).isSome = (lookup k kvs').isSome) ∧ ∀ k e e', lookup k kvs = some e → lookup k kvs' = some e' → Alike L e.v e'.v) := by
  cases h with
  | leaf v w h =>
    have h1 := hL.left _ _ h
    have h2 := hL.right _ _ h
    have h3 := hL.nilp _ _ h
    have h4 := hL.notExist _ _ h
    cases v <;> simp [IsScalar] at h1 <;> cases w <;> simp [IsScalar] at h2 <;> simp [Basic] at h3 h4 ⊢
  | arr xs ys hl h => exact .inr (.inr (.inr (.inl ⟨xs, ys, rfl, rfl, al_of _ _ hl h⟩)))
  | obj n kvs low n' kvs' low' h1 h2 h3 h4 =>
    refine .inr (.inr (.inr (.inr ⟨n, kvs, low, n', kvs', low', rfl, rfl, h1, h2, fun k => ?_, fun k e e' he he' => ?_⟩)))
    · have := h3 k; simpa [members, V.child] using this
    · exact h4 k e.v e'.v (by simp [members, V.child, he]) (by simp [members, V.child, he'])

theorem alike_arr {xs ys : List V} (h : Al (Alike L) xs ys) : Alike L (.arr xs) (.arr ys) := .arr _ _ h.len h.at

theorem alike_obj {n kvs low n' kvs' low'} (h1 : (keys kvs).Nodup) (h2 : (keys kvs').Nodup) (h3 : ∀ k, (lookup k kvs).isSome = (lookup k kvs').isSome)
    (h4 : ∀ k e e', lookup k kvs = some e → lookup k kvs' = some e' → Alike L e.v e'.v) : Alike L (.obj n kvs low) (.obj n' kvs' low') := by
  refine .obj _ _ _ _ _ _ h1 h2 (fun k => by simpa [members, V.child] using h3 k) fun k c c' hc hc' => ?_
  simp only [members, V.child, Option.map_eq_some_iff] at hc hc'
  obtain ⟨e, he, rfl⟩ := hc
  obtain ⟨e', he', rfl⟩ := hc'
  exact h4 k e e' he he'

theorem alike_uninit (hL : LeafRel L) {v w : V} (h : Alike L v w) : v.uninit = w.uninit := by
  rcases alike_cases hL h with ⟨rfl, rfl⟩ | ⟨rfl, rfl⟩ | ⟨h1, h2⟩ | ⟨xs, ys, rfl, rfl, _⟩ | ⟨n, kvs, low, n', kvs', low', rfl, rfl, _⟩ <;> try rfl
  cases v <;> simp [Basic] at h1 <;> cases w <;> simp [Basic] at h2 <;> rfl

/-! lists -/

theorem Al.append {α β : Type} {R : α → β → Prop} {as cs : List α} {bs ds : List β} (h : Al R as bs) (h' : Al R cs ds) : Al R (as ++ cs) (bs ++ ds) := by
  induction h with
  | nil => exact h'
  | cons h _ ih => exact .cons h ih

theorem Al.take {α β : Type} {R : α → β → Prop} {as : List α} {bs : List β} (h : Al R as bs) : ∀ n, Al R (as.take n) (bs.take n) := by
  induction h with
  | nil => intro n; simpa using .nil
  | cons h _ ih => intro n; cases n with
    | zero => exact .nil
    | succ n => exact .cons h (ih n)

theorem Al.drop {α β : Type} {R : α → β → Prop} {as : List α} {bs : List β} (h : Al R as bs) : ∀ n, Al R (as.drop n) (bs.drop n) := by
  induction h with
  | nil => intro n; simpa using .nil
  | cons h t ih => intro n; cases n with
    | zero => exact .cons h t
    | succ n => exact ih n

theorem Al.set {α β : Type} {R : α → β → Prop} {as : List α} {bs : List β} (h : Al R as bs) {a : α} {b : β} (hab : R a b) : ∀ n, Al R (as.set n a) (bs.set n b) := by
  induction h with
  | nil => intro n; simpa using .nil
  | cons h t ih => intro n; cases n with
    | zero => exact .cons hab t
    | succ n => exact .cons h (ih n)

theorem Al.eraseIdx {α β : Type} {R : α → β → Prop} {as : List α} {bs : List β} (h : Al R as bs) : ∀ n, Al R (as.eraseIdx n) (bs.eraseIdx n) := by
  induction h with
  | nil => intro n; simpa using .nil
  | cons h t ih => intro n; cases n with
    | zero => exact t
    | succ n => exact .cons h (ih n)

/-! children -/

inductive OptAl {α β : Type} (R : α → β → Prop) : Option α → Option β → Prop
  | none : OptAl R none none
  | some {a b} : R a b → OptAl R (some a) (some b)

theorem optAl_of {α β : Type} {R : α → β → Prop} {a : Option α} {b : Option β} (h : a.isSome = b.isSome) (h' : ∀ x y, a = some x → b = some y → R x y) : OptAl R a b := by
  cases a <;> cases b <;> simp at h
  · exact .none
  · exact .some (h' _ _ rfl rfl)

theorem Al.opt {α β : Type} {R : α → β → Prop} {as : List α} {bs : List β} (h : Al R as bs) (i : Nat) : OptAl R as[i]? bs[i]? := by
  refine optAl_of ?_ (h.at i)
  rw [Bool.eq_iff_iff]
  simp [h.len]

theorem basic_child {v : V} (h : Basic v) (s : Step) : v.child s = none := by
  cases v <;> simp [Basic] at h <;> rfl

theorem alike_child (hL : LeafRel L) {v w : V} (h : Alike L v w) (s : Step) : OptAl (Alike L) (v.child s) (w.child s) := by
  rcases alike_cases hL h with ⟨rfl, rfl⟩ | ⟨rfl, rfl⟩ | ⟨h1, h2⟩ | ⟨xs, ys, rfl, rfl, ha⟩ | ⟨n, kvs, low, n', kvs', low', rfl, rfl, _, _, h3, h4⟩
  · exact .none
  · exact .none
  · rw [basic_child h1, basic_child h2]; exact .none
  · cases s with
    | key k => exact .none
    | idx i => exact ha.opt i
  · cases s with
    | key k =>
      simp only [V.child]
      have ho := optAl_of (h3 k) (h4 k)
      generalize lookup k kvs = a, lookup k kvs' = b at ho
      cases ho with
      | none => exact .none
      | some h => exact .some h
    | idx i => exact .none

theorem alike_at (hL : LeafRel L) : ∀ (l : List Step) {v w : V}, Alike L v w → OptAl (Alike L) (v.at l) (w.at l)
  | [], _, _, h => .some h
  | s :: l, v, w, h => by
    have hc := alike_child hL h s
    simp only [V.at]
    generalize v.child s = a, w.child s = b at hc
    cases hc with
    | none => exact .none
    | some h => exact alike_at hL l h

theorem basic_put {v : V} (h : Basic v) (s : Step) (c : V) : v.put s c = v := by
  cases v <;> simp [Basic] at h <;> rfl

theorem alike_put (hL : LeafRel L) {v w : V} (h : Alike L v w) (s : Step) {c d : V} (hc : Alike L c d) : Alike L (v.put s c) (w.put s d) := by
  rcases alike_cases hL h with ⟨rfl, rfl⟩ | ⟨rfl, rfl⟩ | ⟨h1, h2⟩ | ⟨xs, ys, rfl, rfl, ha⟩ | ⟨n, kvs, low, n', kvs', low', rfl, rfl, h1, h2, h3, h4⟩
  · exact h
  · exact h
  · rw [basic_put h1, basic_put h2]; exact h
  · cases s with
    | key k => exact h
    | idx i => exact alike_arr (ha.set hc i)
  · cases s with
    | idx i => exact h
    | key k =>
      refine alike_obj (by rw [keys_putKey]; exact h1) (by rw [keys_putKey]; exact h2) (fun j => ?_) fun j e e' he he' => ?_
      · rw [lookup_putKey, lookup_putKey]
        split <;> simp [h3 j]
      · rw [lookup_putKey] at he he'
        by_cases hk : k = j
        · rw [if_pos hk] at he he'
          simp only [Option.map_eq_some_iff] at he he'
          obtain ⟨_, _, rfl⟩ := he
          obtain ⟨_, _, rfl⟩ := he'
          exact hc
        · rw [if_neg hk] at he he'
          exact h4 j e e' he he'

/-- values alike and the same result -/
def Pair (L : V → V → Prop) {α : Type} (r s : V × R α) : Prop := Alike L r.1 s.1 ∧ r.2 = s.2

theorem alike_modify (hL : LeafRel L) {α : Type} {f g : V → V × R α} (hfg : ∀ a b, Alike L a b → Pair L (f a) (g b)) :
    ∀ (l : List Step) {v w : V}, Alike L v w → Pair L (v.modify f l) (w.modify g l)
  | [], _, _, h => hfg _ _ h
  | s :: l, v, w, h => by
    have hc := alike_child hL h s
    simp only [V.modify]
    generalize v.child s = a, w.child s = b at hc
    cases hc with
    | none => exact ⟨h, rfl⟩
    | some hc => exact ⟨alike_put hL h s (alike_modify hL hfg l hc).1, (alike_modify hL hfg l hc).2⟩

/-! ### Get -/

theorem basic_locate {v : V} (h : Basic v) (cl : Bool) (p : Param) : locate E cl v p = (v, .err .other) := by
  cases v <;> simp [Basic] at h <;> rfl

theorem alike_locate (hL : LeafRel L) {v w : V} (h : Alike L v w) (p : Param) : (locate E false v p).2 = (locate E false w p).2 := by
  rcases alike_cases hL h with ⟨rfl, rfl⟩ | ⟨rfl, rfl⟩ | ⟨h1, h2⟩ | ⟨xs, ys, rfl, rfl, ha⟩ | ⟨n, kvs, low, n', kvs', low', rfl, rfl, _, _, h3, h4⟩
  · rfl
  · rfl
  · rw [basic_locate h1, basic_locate h2]
  · simp only [locate, ha.len]
    cases anyToInt p with
    | ok z => 
      dsimp only
      split
      · rfl
      · split <;> rfl
    | _ => rfl
  · simp only [locate, findKey]
    cases anyToString p with
    | ok k =>
      dsimp only
      rw [h3 k]
      cases (lookup k kvs').isSome <;> rfl
    | _ => rfl

mutual
theorem alike_resolve1 (hL : LeafRel L) : ∀ (p : Param) {v w : V}, Alike L v w → (resolve1 E false v p).2 = (resolve1 E false w p).2
  | .slice qs, v, w, h => by
    simp only [resolve1]
    split
    · simp only [alike_locate hL h]
    · exact alike_resolve hL qs h
  | .nil, v, w, h => by simp only [resolve1, alike_locate hL h]
  | .int _, v, w, h => by simp only [resolve1, alike_locate hL h]
  | .uint _, v, w, h => by simp only [resolve1, alike_locate hL h]
  | .str _, v, w, h => by simp only [resolve1, alike_locate hL h]
  | .other, v, w, h => by simp only [resolve1, alike_locate hL h]
termination_by structural p => p
theorem alike_resolve (hL : LeafRel L) : ∀ (ps : List Param) {v w : V}, Alike L v w → (resolve E false v ps).2 = (resolve E false w ps).2
  | [], _, _, _ => rfl
  | p :: rest, v, w, h => by
    rw [resolve, resolve]
    by_cases hr : rest.isEmpty = true
    · rw [if_pos hr, if_pos hr]; exact alike_resolve1 hL p h
    · rw [if_neg hr, if_neg hr]
      by_cases hp : p.isSlice = true
      · rw [if_pos hp, if_pos hp]
      · rw [if_neg hp, if_neg hp]
        have hl := alike_locate (E := E) hL h p
        have h1 := locate_plain E v p
        have h2 := locate_plain E w p
        generalize locate E false v p = a at hl h1
        generalize locate E false w p = b at hl h2
        obtain ⟨a1, a2⟩ := a
        obtain ⟨b1, b2⟩ := b
        simp only at hl h1 h2
        subst hl h1 h2
        cases a2 with
        | ok s =>
          dsimp only
          have hc := alike_child hL h s
          generalize a1.child s = a, b1.child s = b at hc
          cases hc with
          | none => rfl
          | some hc => dsimp only; rw [alike_resolve hL rest hc]
        | _ => rfl
termination_by structural ps => ps
end

theorem alike_get (hL : LeafRel L) {v w : V} (h : Alike L v w) (ps : List Param) : ResAlike (Alike L) (get E v ps) (get E w ps) := by
  simp only [get, getC, fetch, resolve_plain, alike_resolve (E := E) hL ps h]
  cases hr : (resolve E false w ps).2 with
  | ok l =>
    show ResAlike _ (match v.at l with | some c => R.ok c | none => .panic) (match w.at l with | some c => R.ok c | none => .panic)
    have := alike_at hL l h
    generalize v.at l = a, w.at l = b at this
    cases this with
    | none => exact .panic
    | some h => exact .ok _ _ h
  | err e => exact .err e
  | panic => exact .panic
  | diverge => exact .diverge

/-! ### Set -/

theorem alike_setKey (hL : LeafRel L) {n kvs low n' kvs' low'} (h : Alike L (.obj n kvs low) (.obj n' kvs' low')) (k : Bytes) {c d : V} (hc : Alike L c d) :
    Alike L (setKey E n kvs low k c) (setKey E n' kvs' low' k d) := by
  rcases alike_cases hL h with ⟨h, _⟩ | ⟨h, _⟩ | ⟨h1, _⟩ | ⟨_, _, h, _⟩ | ⟨_, _, _, _, _, _, he, he', h1, h2, h3, h4⟩
  · cases h
  · cases h
  · exact h1.elim
  · cases h
  · cases he; cases he'
    refine alike_obj (nodup_assign h1) (nodup_assign h2) (fun j => ?_) fun j e e' he he' => ?_
    · rw [lookup_assign, lookup_assign]
      by_cases hk : k = j
      · simp [Ent.key, hk]
      · simp [Ent.key, hk, h3 j]
    · rw [lookup_assign] at he he'
      by_cases hk : k = j
      · simp [Ent.key, hk] at he he'
        subst he he'
        exact hc
      · simp [Ent.key, hk] at he he'
        exact h4 j e e' he he'

theorem basic_atLast {v : V} (h : Basic v) (c : V) (p : Param) : atLastParam E v c p = (v, .err .other) := by
  cases v <;> simp [Basic] at h <;> rfl

theorem alike_atLast (hL : LeafRel L) {v w : V} (h : Alike L v w) {c d : V} (hc : Alike L c d) (p : Param) :
    Pair L (atLastParam E v c p) (atLastParam E w d p) := by
  rcases alike_cases hL h with ⟨rfl, rfl⟩ | ⟨rfl, rfl⟩ | ⟨h1, h2⟩ | ⟨xs, ys, rfl, rfl, ha⟩ | ⟨n, kvs, low, n', kvs', low', rfl, rfl, _⟩
  · exact ⟨h, rfl⟩
  · exact ⟨h, rfl⟩
  · rw [basic_atLast h1, basic_atLast h2]; exact ⟨h, rfl⟩
  · simp only [atLastParam]
    cases anyToInt p with
    | ok z =>
      dsimp only
      rw [setAtIndex_eq, setAtIndex_eq, ha.len]
      by_cases hz : z = ys.length
      · simp only [if_pos hz]
        exact ⟨alike_arr (ha.append (.cons hc .nil)), rfl⟩
      · simp only [if_neg hz]
        cases index ys.length z with
        | none => exact ⟨h, rfl⟩
        | some i => exact ⟨alike_arr (ha.set hc i), rfl⟩
    | _ => exact ⟨h, rfl⟩
  · simp only [atLastParam]
    cases anyToString p with
    | ok k => exact ⟨alike_setKey hL h k hc, rfl⟩
    | _ => exact ⟨h, rfl⟩

theorem alike_newObject : Alike L newObject newObject := alike_obj (by simp) (by simp) (fun _ => rfl) fun k e e' h => by simp [lookup] at h
theorem alike_newArray : Alike L newArray newArray := alike_arr .nil

theorem alike_newContainer {p : Param} {c : V} (h : newContainer p = .ok c) : Alike L c c := by
  unfold newContainer at h
  split at h
  · cases h; exact alike_newObject
  · split at h
    · split at h
      · cases h
      · cases h; exact alike_newArray
    · cases h

theorem alike_last (hL : LeafRel L) {v w : V} (h : Alike L v w) {c d : V} (hc : Alike L c d) (p : Param) {b : Bool} :
    Pair L (if b = true then (v, R.err .valueUninitialized) else atLastParam E v c p) (if b = true then (w, R.err .valueUninitialized) else atLastParam E w d p) := by
  cases b
  · exact alike_atLast hL h hc p
  · exact ⟨h, rfl⟩

mutual
theorem alike_setAt1 (hL : LeafRel L) {c d : V} (hc : Alike L c d) : ∀ (p : Param) {v w : V}, Alike L v w → Pair L (setAt1 E v c p) (setAt1 E w d p)
  | .slice qs, v, w, h => by
    simp only [setAt1, alike_uninit hL h, alike_uninit hL hc]
    by_cases hq : qs.isEmpty = true
    · simp only [if_pos hq]
      split
      · exact ⟨h, rfl⟩
      · exact alike_atLast hL h hc _
    · simp only [if_neg hq]; exact alike_setAt hL hc qs h
  | .nil, v, w, h => by simp only [setAt1, alike_uninit hL h, alike_uninit hL hc]; exact alike_last hL h hc _
  | .int _, v, w, h => by simp only [setAt1, alike_uninit hL h, alike_uninit hL hc]; exact alike_last hL h hc _
  | .uint _, v, w, h => by simp only [setAt1, alike_uninit hL h, alike_uninit hL hc]; exact alike_last hL h hc _
  | .str _, v, w, h => by simp only [setAt1, alike_uninit hL h, alike_uninit hL hc]; exact alike_last hL h hc _
  | .other, v, w, h => by simp only [setAt1, alike_uninit hL h, alike_uninit hL hc]; exact alike_last hL h hc _
termination_by structural p => p
theorem alike_setAt (hL : LeafRel L) {c d : V} (hc : Alike L c d) : ∀ (ps : List Param) {v w : V}, Alike L v w → Pair L (setAt E v c ps) (setAt E w d ps)
  | [], _, _, h => ⟨h, rfl⟩
  | [p], v, w, h => alike_setAt1 hL hc p h
  | p :: next :: rest, v, w, h => by
    have ih := fun (v w : V) (h : Alike L v w) => alike_setAt hL hc (next :: rest) h
    unfold setAt
    rw [alike_uninit hL h, alike_uninit hL hc]
    dsimp only
    by_cases hp : p.isSlice = true
    · simp only [if_pos hp]; exact ⟨h, rfl⟩
    · simp only [if_neg hp]
      by_cases hu : (w.uninit || d.uninit) = true
      · simp only [if_pos hu]; exact ⟨h, rfl⟩
      · simp only [if_neg hu]
        rcases alike_cases hL h with ⟨rfl, rfl⟩ | ⟨rfl, rfl⟩ | ⟨h1, h2⟩ | ⟨xs, ys, rfl, rfl, ha⟩ | ⟨n, kvs, low, n', kvs', low', rfl, rfl, h1, h2, h3, h4⟩
        · exact ⟨h, rfl⟩
        · exact ⟨h, rfl⟩
        · cases v <;> simp [Basic] at h1 <;> cases w <;> simp [Basic] at h2 <;> exact ⟨h, rfl⟩
        · dsimp only
          cases anyToInt p with
          | ok z =>
            dsimp only
            rw [ha.len]
            by_cases hi : posForRead ys.length z < 0
            · simp only [if_pos hi]
              cases hn : newContainer next with
              | ok ch =>
                dsimp only
                obtain ⟨i1, i2⟩ := ih ch ch (alike_newContainer hn)
                rw [i2]
                cases (setAt E ch d (next :: rest)).2 with
                | ok l => exact ⟨alike_arr (ha.append (.cons i1 .nil)), rfl⟩
                | _ => exact ⟨h, rfl⟩
              | _ => exact ⟨h, rfl⟩
            · simp only [if_neg hi]
              have ho := ha.opt (posForRead ys.length z).toNat
              generalize xs[(posForRead ys.length z).toNat]? = a, ys[(posForRead ys.length z).toNat]? = b at ho
              cases ho with
              | none => exact ⟨h, rfl⟩
              | some ho =>
                dsimp only
                obtain ⟨i1, i2⟩ := ih _ _ ho
                exact ⟨alike_put hL h (.idx _) i1, by rw [i2]⟩
          | _ => exact ⟨h, rfl⟩
        · dsimp only
          cases anyToString p with
          | ok k =>
            dsimp only
            have ho := optAl_of (h3 k) (h4 k)
            generalize lookup k kvs = a, lookup k kvs' = b at ho
            cases ho with
            | none =>
              dsimp only
              cases hn : newContainer next with
              | ok ch =>
                dsimp only
                obtain ⟨i1, i2⟩ := ih ch ch (alike_newContainer hn)
                rw [i2]
                cases (setAt E ch d (next :: rest)).2 with
                | ok l => exact ⟨alike_setKey hL h k i1, rfl⟩
                | _ => exact ⟨h, rfl⟩
              | _ => exact ⟨h, rfl⟩
            | some ho =>
              dsimp only
              obtain ⟨i1, i2⟩ := ih _ _ ho
              exact ⟨alike_put hL h (.key k) i1, by rw [i2]⟩
          | _ => exact ⟨h, rfl⟩
termination_by structural ps => ps
end

/-! ### Insert, Append -/

theorem basic_insertLast {v : V} (h : Basic v) (after : Bool) (c : V) (p : Param) : insertLast after v c p = (v, .err .notArrayValue) := by
  cases v <;> simp [Basic] at h <;> rfl

theorem posForInsertBefore_le (n : Nat) (z : Int) : (posForInsertBefore n z).toNat ≤ n := by
  unfold posForInsertBefore
  dsimp only
  repeat' split
  all_goals omega

theorem posForInsertAfter_le (n : Nat) (z : Int) : (posForInsertAfter n z).1.toNat ≤ n := by
  unfold posForInsertAfter
  dsimp only
  repeat' split
  all_goals (dsimp only; omega)

theorem alike_insertLast (hL : LeafRel L) {v w : V} (h : Alike L v w) {c d : V} (hc : Alike L c d) (after : Bool) (p : Param) :
    Pair L (insertLast after v c p) (insertLast after w d p) := by
  rcases alike_cases hL h with ⟨rfl, rfl⟩ | ⟨rfl, rfl⟩ | ⟨h1, h2⟩ | ⟨xs, ys, rfl, rfl, ha⟩ | ⟨n, kvs, low, n', kvs', low', rfl, rfl, _⟩
  · cases after <;> exact ⟨h, rfl⟩
  · exact ⟨h, rfl⟩
  · rw [basic_insertLast h1, basic_insertLast h2]; exact ⟨h, rfl⟩
  · simp only [insertLast]
    cases anyToInt p with
    | ok z =>
      dsimp only
      rw [ha.len]
      have hle : (if after then posForInsertAfter ys.length z else (posForInsertBefore ys.length z, false)).1.toNat ≤ ys.length := by
        split
        · exact posForInsertAfter_le _ _
        · exact posForInsertBefore_le _ _
      generalize (if after then posForInsertAfter ys.length z else (posForInsertBefore ys.length z, false)) = q at hle ⊢
      by_cases h1 : q.1 < 0
      · simp only [if_pos h1]; exact ⟨h, rfl⟩
      · simp only [if_neg h1]
        by_cases h2 : q.2 = true
        · simp only [if_pos h2]; exact ⟨alike_arr (ha.append (.cons hc .nil)), rfl⟩
        · simp only [if_neg h2]
          rw [insertToArr_eq _ _ _ (by rw [ha.len]; exact hle), insertToArr_eq _ _ _ hle]
          exact ⟨alike_arr ((ha.take _).append (.cons hc (ha.drop _))), rfl⟩
    | _ => exact ⟨h, rfl⟩
  · exact ⟨h, rfl⟩

theorem alike_locArray (hL : LeafRel L) {v w : V} (h : Alike L v w) (ps : List Param) : locArray E v ps = locArray E w ps := by
  simp only [locArray, alike_resolve (E := E) hL ps h]
  cases (resolve E false w ps).2 with
  | ok l =>
    dsimp only
    have := alike_at hL l h
    generalize v.at l = a, w.at l = b at this
    cases this with
    | none => rfl
    | @some a b h =>
      rcases alike_cases hL h with ⟨rfl, rfl⟩ | ⟨rfl, rfl⟩ | ⟨h1, h2⟩ | ⟨xs, ys, rfl, rfl, ha⟩ | ⟨n, kvs, low, n', kvs', low', rfl, rfl, _⟩ <;> try rfl
      cases a <;> simp [Basic] at h1 <;> cases b <;> simp [Basic] at h2 <;> rfl
  | _ => rfl

theorem pair_prefix {l : List Step} {r s : V × R (List Step)} (h : Pair L r s) : Pair L (prefixLoc l r) (prefixLoc l s) :=
  ⟨h.1, by simp only [prefixLoc, h.2]⟩

mutual
theorem alike_insertAt1 (hL : LeafRel L) {c d : V} (hc : Alike L c d) (after : Bool) : ∀ (p : Param) {v w : V}, Alike L v w →
    Pair L (insertAt1 E after v c p) (insertAt1 E after w d p)
  | .slice qs, v, w, h => by
    simp only [insertAt1]
    by_cases hq : qs.isEmpty = true
    · simp only [if_pos hq]; exact alike_insertLast hL h hc after _
    · simp only [if_neg hq]; exact alike_insertAt hL hc after qs [] h
  | .nil, v, w, h => alike_insertLast hL h hc after _
  | .int _, v, w, h => alike_insertLast hL h hc after _
  | .uint _, v, w, h => alike_insertLast hL h hc after _
  | .str _, v, w, h => alike_insertLast hL h hc after _
  | .other, v, w, h => alike_insertLast hL h hc after _
termination_by structural p => p
theorem alike_insertAt (hL : LeafRel L) {c d : V} (hc : Alike L c d) (after : Bool) : ∀ (ps pre : List Param) {v w : V}, Alike L v w →
    Pair L (insertAt E after v c pre ps) (insertAt E after w d pre ps)
  | [], _, _, _, h => ⟨h, rfl⟩
  | p :: rest, pre, v, w, h => by
    unfold insertAt
    by_cases hr : (!rest.isEmpty) = true
    · rw [if_pos hr, if_pos hr]; exact alike_insertAt hL hc after rest _ h
    · rw [if_neg hr, if_neg hr]
      cases pre with
      | nil => exact alike_insertAt1 hL hc after p h
      | cons first pre =>
        dsimp only
        by_cases hp : first.isSlice = true
        · rw [if_pos hp, if_pos hp]; exact ⟨h, rfl⟩
        · rw [if_neg hp, if_neg hp]
          have key : Pair L
              (match locArray E v (first :: pre) with
                | .ok l => prefixLoc l (v.modify (fun a => insertAt1 E after a c p) l)
                | .err e => (v, .err e)
                | .panic => (v, .panic)
                | .diverge => (v, .diverge))
              (match locArray E w (first :: pre) with
                | .ok l => prefixLoc l (w.modify (fun a => insertAt1 E after a d p) l)
                | .err e => (w, .err e)
                | .panic => (w, .panic)
                | .diverge => (w, .diverge)) := by
            rw [alike_locArray hL h]
            cases locArray E w (first :: pre) with
            | ok l => exact pair_prefix (alike_modify hL (fun a b hab => alike_insertAt1 hL hc after p hab) l h)
            | _ => exact ⟨h, rfl⟩
          rcases alike_cases hL h with ⟨rfl, rfl⟩ | ⟨rfl, rfl⟩ | ⟨h1, h2⟩ | ⟨xs, ys, rfl, rfl, ha⟩ | ⟨n, kvs, low, n', kvs', low', rfl, rfl, _⟩
          · cases after <;> exact ⟨h, rfl⟩
          · exact ⟨h, rfl⟩
          · cases v <;> simp [Basic] at h1 <;> cases w <;> simp [Basic] at h2 <;> exact key
          · exact key
          · exact key
termination_by structural ps => ps
end

theorem alike_appendTo (hL : LeafRel L) {v w : V} (h : Alike L v w) {c d : V} (hc : Alike L c d) (beg : Bool) : Pair L (appendTo beg v c) (appendTo beg w d) := by
  rcases alike_cases hL h with ⟨rfl, rfl⟩ | ⟨rfl, rfl⟩ | ⟨h1, h2⟩ | ⟨xs, ys, rfl, rfl, ha⟩ | ⟨n, kvs, low, n', kvs', low', rfl, rfl, _⟩
  · exact ⟨h, rfl⟩
  · exact ⟨h, rfl⟩
  · cases v <;> simp [Basic] at h1 <;> cases w <;> simp [Basic] at h2 <;> exact ⟨h, rfl⟩
  · have he : xs.isEmpty = ys.isEmpty := by cases ha <;> rfl
    simp only [appendTo, he, ha.len]
    by_cases hb : (beg && !ys.isEmpty) = true
    · simp only [if_pos hb]
      rw [insertToArr_eq _ _ _ (Nat.zero_le _), insertToArr_eq _ _ _ (Nat.zero_le _)]
      exact ⟨alike_arr (.cons hc ha), rfl⟩
    · simp only [if_neg hb]
      exact ⟨alike_arr (ha.append (.cons hc .nil)), rfl⟩
  · exact ⟨h, rfl⟩

theorem alike_appendPath (hL : LeafRel L) {v w : V} (h : Alike L v w) {c d : V} (hc : Alike L c d) (beg : Bool) (ps : List Param) :
    Pair L (appendPath E beg v c ps) (appendPath E beg w d ps) := by
  have hm := fun (l : List Step) (v w : V) (h : Alike L v w) =>
    pair_prefix (l := l) (alike_modify hL (fun a b hab => alike_appendTo hL hab hc beg) l h)
  simp only [appendPath, alike_locArray (E := E) hL h]
  cases locArray E w ps with
  | ok l => exact hm l v w h
  | err e =>
    cases e <;> try exact ⟨h, rfl⟩
    dsimp only
    obtain ⟨i1, i2⟩ := alike_setAt (E := E) hL (alike_newArray (L := L)) ps h
    generalize setAt E v newArray ps = a at i1 i2
    generalize setAt E w newArray ps = b at i1 i2
    obtain ⟨a1, a2⟩ := a
    obtain ⟨b1, b2⟩ := b
    simp only at i1 i2
    subst i2
    cases a2 with
    | ok l => exact hm l _ _ i1
    | _ => exact ⟨i1, rfl⟩
  | _ => exact ⟨h, rfl⟩

mutual
theorem alike_appendAt1 (hL : LeafRel L) {c d : V} (hc : Alike L c d) (beg : Bool) : ∀ (p : Param) {v w : V}, Alike L v w →
    Pair L (appendAt1 E beg v c p) (appendAt1 E beg w d p)
  | .slice qs, v, w, h => alike_appendAt hL hc beg qs h
  | .nil, v, w, h => alike_appendPath hL h hc beg _
  | .int _, v, w, h => alike_appendPath hL h hc beg _
  | .uint _, v, w, h => alike_appendPath hL h hc beg _
  | .str _, v, w, h => alike_appendPath hL h hc beg _
  | .other, v, w, h => alike_appendPath hL h hc beg _
termination_by structural p => p
theorem alike_appendAt (hL : LeafRel L) {c d : V} (hc : Alike L c d) (beg : Bool) : ∀ (ps : List Param) {v w : V}, Alike L v w →
    Pair L (appendAt E beg v c ps) (appendAt E beg w d ps)
  | [], v, w, h => by
    rcases alike_cases hL h with ⟨rfl, rfl⟩ | ⟨rfl, rfl⟩ | ⟨h1, h2⟩ | ⟨xs, ys, rfl, rfl, ha⟩ | ⟨n, kvs, low, n', kvs', low', rfl, rfl, _⟩
    · cases beg <;> exact ⟨h, rfl⟩
    · exact ⟨h, rfl⟩
    · cases v <;> simp [Basic] at h1 <;> cases w <;> simp [Basic] at h2 <;> exact ⟨h, rfl⟩
    · exact alike_appendTo hL h hc beg
    · exact ⟨h, rfl⟩
  | p :: rest, v, w, h => by
    have key : Pair L
        (if (p.isSlice && !rest.isEmpty) = true then (v, .err .multipleParam)
          else if p.isSlice = true then appendAt1 E beg v c p else appendPath E beg v c (p :: rest))
        (if (p.isSlice && !rest.isEmpty) = true then (w, .err .multipleParam)
          else if p.isSlice = true then appendAt1 E beg w d p else appendPath E beg w d (p :: rest)) := by
      by_cases h1 : (p.isSlice && !rest.isEmpty) = true
      · rw [if_pos h1, if_pos h1]; exact ⟨h, rfl⟩
      · rw [if_neg h1, if_neg h1]
        by_cases h2 : p.isSlice = true
        · rw [if_pos h2, if_pos h2]; exact alike_appendAt1 hL hc beg p h
        · rw [if_neg h2, if_neg h2]; exact alike_appendPath hL h hc beg _
    unfold appendAt
    rcases alike_cases hL h with ⟨rfl, rfl⟩ | ⟨rfl, rfl⟩ | ⟨h1, h2⟩ | ⟨xs, ys, rfl, rfl, ha⟩ | ⟨n, kvs, low, n', kvs', low', rfl, rfl, _⟩
    · cases beg <;> exact ⟨h, rfl⟩
    · exact ⟨h, rfl⟩
    · cases v <;> simp [Basic] at h1 <;> cases w <;> simp [Basic] at h2 <;> exact key
    · exact key
    · exact key
termination_by structural ps => ps
end

/-! ### Delete -/

theorem basic_deleteLast {v : V} (h : Basic v) (cl : Bool) (p : Param) : deleteLast E cl v p = (v, .err .other) := by
  cases v <;> simp [Basic] at h <;> rfl

theorem alike_deleteLast (hL : LeafRel L) {v w : V} (h : Alike L v w) (p : Param) : Pair L (deleteLast E false v p) (deleteLast E false w p) := by
  rcases alike_cases hL h with ⟨rfl, rfl⟩ | ⟨rfl, rfl⟩ | ⟨h1, h2⟩ | ⟨xs, ys, rfl, rfl, ha⟩ | ⟨n, kvs, low, n', kvs', low', rfl, rfl, h1, h2, h3, h4⟩
  · exact ⟨h, rfl⟩
  · exact ⟨h, rfl⟩
  · rw [basic_deleteLast h1, basic_deleteLast h2]; exact ⟨h, rfl⟩
  · simp only [deleteLast]
    cases anyToInt p with
    | ok z =>
      dsimp only
      rw [ha.len]
      by_cases hi : posForRead ys.length z < 0
      · simp only [if_pos hi]; exact ⟨h, rfl⟩
      · simp only [if_neg hi]
        by_cases hlt : (posForRead ys.length z).toNat < ys.length
        · rw [deleteInArr_eq _ _ (by rw [ha.len]; exact hlt), deleteInArr_eq _ _ hlt]
          exact ⟨alike_arr (ha.eraseIdx _), rfl⟩
        · simp only [deleteInArr, ha.len, if_neg hlt]
          exact ⟨h, rfl⟩
    | _ => exact ⟨h, rfl⟩
  · simp only [deleteLast, delKey, findKey]
    cases anyToString p with
    | ok k =>
      dsimp only
      rw [h3 k]
      cases (lookup k kvs').isSome with
      | true =>
        refine ⟨alike_obj (nodup_erase h1) (nodup_erase h2) (fun j => ?_) fun j e e' he he' => ?_, rfl⟩
        · rw [lookup_erase _ _ _ h1, lookup_erase _ _ _ h2]
          split
          · rfl
          · exact h3 j
        · rw [lookup_erase _ _ _ h1] at he
          rw [lookup_erase _ _ _ h2] at he'
          by_cases hk : k = j
          · rw [if_pos hk] at he; cases he
          · rw [if_neg hk] at he he'; exact h4 j e e' he he'
      | false => exact ⟨h, rfl⟩
    | _ => exact ⟨h, rfl⟩

mutual
theorem alike_deleteAt1 (hL : LeafRel L) : ∀ (p : Param) {v w : V}, Alike L v w → Pair L (deleteAt1 E false v p) (deleteAt1 E false w p)
  | .slice qs, v, w, h => by
    simp only [deleteAt1]
    by_cases hq : qs.isEmpty = true
    · simp only [if_pos hq]; exact alike_deleteLast hL h _
    · simp only [if_neg hq]; exact alike_deleteAt hL qs [] h
  | .nil, v, w, h => alike_deleteLast hL h _
  | .int _, v, w, h => alike_deleteLast hL h _
  | .uint _, v, w, h => alike_deleteLast hL h _
  | .str _, v, w, h => alike_deleteLast hL h _
  | .other, v, w, h => alike_deleteLast hL h _
termination_by structural p => p
theorem alike_deleteAt (hL : LeafRel L) : ∀ (ps pre : List Param) {v w : V}, Alike L v w → Pair L (deleteAt E false v pre ps) (deleteAt E false w pre ps)
  | [], _, _, _, h => ⟨h, rfl⟩
  | p :: rest, pre, v, w, h => by
    unfold deleteAt
    by_cases hr : (!rest.isEmpty) = true
    · rw [if_pos hr, if_pos hr]; exact alike_deleteAt hL rest _ h
    · rw [if_neg hr, if_neg hr]
      cases pre with
      | nil => exact alike_deleteAt1 hL p h
      | cons first pre =>
        dsimp only
        by_cases hp : first.isSlice = true
        · rw [if_pos hp, if_pos hp]; exact ⟨h, rfl⟩
        · rw [if_neg hp, if_neg hp]
          have hl := alike_resolve (E := E) hL (first :: pre) h
          have h1 := resolve_plain E (first :: pre) v
          have h2 := resolve_plain E (first :: pre) w
          generalize resolve E false v (first :: pre) = a at hl h1
          generalize resolve E false w (first :: pre) = b at hl h2
          obtain ⟨a1, a2⟩ := a
          obtain ⟨b1, b2⟩ := b
          simp only at hl h1 h2
          subst hl h1 h2
          cases a2 with
          | ok l => exact alike_modify hL (fun a b hab => alike_deleteAt1 hL p hab) l h
          | _ => exact ⟨h, rfl⟩
termination_by structural ps => ps
end

/-! ### programs -/

theorem alike_change (hL : LeafRel L) {v w : V} (h : Alike L v w) {a b : Change} (hab : ChangeAlike (Alike L) a b) : Pair L (a.run E v) (b.run E w) := by
  cases hab with
  | set a b ps hc =>
    have : Pair L (set E v a ps) (set E w b ps) := by
      obtain ⟨h1, h2⟩ := hc
      simp only [set, h1] at h2 ⊢
      cases hb : b.err with
      | none => exact alike_setAt hL (h2 hb) ps h
      | some e => exact ⟨h, rfl⟩
    exact ⟨this.1, by simp only [Change.run, this.2]⟩
  | insert after a b ps hc =>
    have : Pair L (insert E after v a ps) (insert E after w b ps) := by
      obtain ⟨h1, h2⟩ := hc
      simp only [insert, h1] at h2 ⊢
      cases hb : b.err with
      | none => exact alike_insertAt hL (h2 hb) after ps [] h
      | some e => exact ⟨h, rfl⟩
    exact ⟨this.1, by simp only [Change.run, this.2]⟩
  | append beg a b ps hc =>
    have : Pair L (append E beg v a ps) (append E beg w b ps) := alike_appendAt hL hc beg ps h
    exact ⟨this.1, by simp only [Change.run, this.2]⟩
  | delete ps =>
    have : Pair L (delete E false v ps) (delete E false w ps) := alike_deleteAt hL ps [] h
    exact ⟨this.1, by simp only [Change.run, this.2]⟩

theorem alike_changes (hL : LeafRel L) {as bs : List Change} (hp : ProgAlike (Alike L) as bs) : ∀ {v w : V}, Alike L v w →
    Alike L (changes E v as).1 (changes E w bs).1 ∧ (changes E v as).2 = (changes E w bs).2 := by
  induction hp with
  | nil => exact fun h => ⟨h, rfl⟩
  | cons a b as bs hab _ ih =>
    intro v w h
    obtain ⟨h1, h2⟩ := alike_change (E := E) hL h hab
    obtain ⟨h3, h4⟩ := ih h1
    exact ⟨h3, by simp only [changes, h2, h4]⟩

theorem prog_imp {P Q : V → V → Prop} {as bs : List Change} (h : ProgAlike P as bs) (hi : ∀ a b, P a b → Q a b) : ProgAlike Q as bs := by
  induction h with
  | nil => exact .nil
  | cons a b as bs hab _ ih =>
    refine .cons _ _ _ _ ?_ ih
    cases hab with
    | set a b ps h => exact .set _ _ _ ⟨h.1, fun he => hi _ _ (h.2 he)⟩
    | insert f a b ps h => exact .insert _ _ _ _ ⟨h.1, fun he => hi _ _ (h.2 he)⟩
    | append f a b ps h => exact .append _ _ _ _ (hi _ _ h)
    | delete ps => exact .delete _

theorem res_imp {α β : Type} {P Q : α → β → Prop} {r : R α} {s : R β} (h : ResAlike P r s) (hi : ∀ a b, P a b → Q a b) : ResAlike Q r s := by
  cases h with
  | ok a b h => exact .ok _ _ (hi _ _ h)
  | err e => exact .err e
  | panic => exact .panic
  | diverge => exact .diverge

theorem alike_keys (hL : LeafRel L) {v w : V} (h : Alike L v w) : Her KeysNodup v ∧ Her KeysNodup w := by
  induction h with
  | leaf v w h =>
    have h1 := hL.left _ _ h
    have h2 := hL.right _ _ h
    constructor
    · refine her_iff.2 ⟨by cases v <;> simp [IsScalar] at h1 <;> trivial, fun s c hc => ?_⟩
      cases v <;> simp [IsScalar] at h1 <;> cases hc
    · refine her_iff.2 ⟨by cases w <;> simp [IsScalar] at h2 <;> trivial, fun s c hc => ?_⟩
      cases w <;> simp [IsScalar] at h2 <;> cases hc
  | arr xs ys hl _ ih =>
    constructor
    · refine her_iff.2 ⟨trivial, fun s c hc => ?_⟩
      cases s with
      | key k => cases hc
      | idx i =>
        have hc : xs[i]? = some c := hc
        obtain ⟨hi, _⟩ := List.getElem?_eq_some_iff.1 hc
        exact (ih i c ys[i] hc (by simp [hl ▸ hi])).1
    · refine her_iff.2 ⟨trivial, fun s c hc => ?_⟩
      cases s with
      | key k => cases hc
      | idx i =>
        have hc : ys[i]? = some c := hc
        obtain ⟨hi, _⟩ := List.getElem?_eq_some_iff.1 hc
        exact (ih i xs[i] c (by simp [hl, hi]) hc).2
  | obj n kvs low n' kvs' low' h1 h2 h3 _ ih =>
    constructor
    · refine her_iff.2 ⟨h1, fun s c hc => ?_⟩
      cases s with
      | idx i => cases hc
      | key k =>
        have h := h3 k
        rw [show members (.obj n kvs low) k = some c from hc] at h
        obtain ⟨d, hd⟩ := Option.isSome_iff_exists.1 h.symm
        exact (ih k c d hc hd).1
    · refine her_iff.2 ⟨h2, fun s c hc => ?_⟩
      cases s with
      | idx i => cases hc
      | key k =>
        have h := h3 k
        rw [show members (.obj n' kvs' low') k = some c from hc] at h
        obtain ⟨d, hd⟩ := Option.isSome_iff_exists.1 h
        exact (ih k d c hd hc).2

/-! ### Equal values -/

def EqLeaf (val : Bytes → Rat) (v w : V) : Prop := IsScalar v ∧ IsScalar w ∧ EqualTo val v w

theorem leafRel_eq (val : Bytes → Rat) : LeafRel (EqLeaf val) where
  left _ _ h := h.1
  right _ _ h := h.2.1
  nilp v w h := by obtain ⟨_, _, h⟩ := h; cases h <;> simp
  notExist v w h := by obtain ⟨_, _, h⟩ := h; cases h <;> simp

theorem alike_of_equalTo {val : Bytes → Rat} {v w : V} (h : EqualTo val v w) : Her KeysNodup v → Her KeysNodup w → Alike (EqLeaf val) v w := by
  induction h with
  | null => exact fun _ _ => .leaf _ _ ⟨trivial, trivial, .null⟩
  | bool b => exact fun _ _ => .leaf _ _ ⟨trivial, trivial, .bool b⟩
  | str s => exact fun _ _ => .leaf _ _ ⟨trivial, trivial, .str s⟩
  | num s t n m h => exact fun _ _ => .leaf _ _ ⟨trivial, trivial, .num s t n m h⟩
  | arr xs ys hl _ ih =>
    exact fun hv hw => .arr _ _ hl fun i x y hx hy => ih i x y hx hy ((her_iff.1 hv).2 (.idx i) x hx) ((her_iff.1 hw).2 (.idx i) y hy)
  | obj n kvs low n' kvs' low' hk _ ih =>
    exact fun hv hw => .obj _ _ _ _ _ _ (her_iff.1 hv).1 (her_iff.1 hw).1 hk fun k c c' h1 h2 =>
      ih k c c' h1 h2 ((her_iff.1 hv).2 (.key k) c h1) ((her_iff.1 hw).2 (.key k) c' h2)

theorem equalTo_of_alike {val : Bytes → Rat} {v w : V} (h : Alike (EqLeaf val) v w) : EqualTo val v w := by
  induction h with
  | leaf v w h => exact h.2.2
  | arr xs ys hl _ ih => exact .arr _ _ hl ih
  | obj n kvs low n' kvs' low' _ _ hk _ ih => exact .obj _ _ _ _ _ _ hk ih

/-! ### the same values -/

def SameLeaf (v w : V) : Prop := IsScalar v ∧ IsScalar w ∧ Same v w

theorem leafRel_same : LeafRel SameLeaf where
  left _ _ h := h.1
  right _ _ h := h.2.1
  nilp v w h := by
    obtain ⟨h1, _, h⟩ := h
    cases h <;> simp
  notExist v w h := by
    obtain ⟨h1, _, h⟩ := h
    cases h <;> simp

theorem alike_of_same {v w : V} (h : Same v w) : Her KeysNodup v → Her KeysNodup w → Alike SameLeaf v w := by
  induction h with
  | scalar v h => exact fun _ _ => .leaf _ _ ⟨h, h, .scalar v h⟩
  | num src n n' h => exact fun _ _ => .leaf _ _ ⟨trivial, trivial, .num src n n' h⟩
  | arr xs ys hl _ ih =>
    exact fun hv hw => .arr _ _ hl fun i x y hx hy => ih i x y hx hy ((her_iff.1 hv).2 (.idx i) x hx) ((her_iff.1 hw).2 (.idx i) y hy)
  | obj n kvs low n' kvs' low' hk _ ih =>
    exact fun hv hw => .obj _ _ _ _ _ _ (her_iff.1 hv).1 (her_iff.1 hw).1 hk fun k c c' h1 h2 =>
      ih k c c' h1 h2 ((her_iff.1 hv).2 (.key k) c h1) ((her_iff.1 hw).2 (.key k) c' h2)

theorem same_of_alike {v w : V} (h : Alike SameLeaf v w) : Same v w := by
  induction h with
  | leaf v w h => exact h.2.2
  | arr xs ys hl _ ih => exact .arr _ _ hl ih
  | obj n kvs low n' kvs' low' _ _ hk _ ih => exact .obj _ _ _ _ _ _ hk ih

/-! ### typed getters -/

theorem typedGet_alike {α : Type} {P : V → V → Prop} {v w : V} {ps : List Param} {zero : α} {conv : V → Ret α} (h : ResAlike P (get E v ps) (get E w ps))
    (hc : ∀ a b, get E v ps = .ok a → P a b → conv a = conv b) : typedGet E false zero conv v ps = typedGet E false zero conv w ps := by
  simp only [get] at h hc
  unfold typedGet
  generalize (getC E false v ps).2 = r at h hc
  generalize (getC E false w ps).2 = s at h
  cases h with
  | ok a b h => exact hc a b rfl h
  | _ => rfl

end JV
