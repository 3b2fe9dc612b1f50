import Verif.Proofs.Set
/-!
Insert, Append and Delete.
-/
namespace JV
open Spec

/-! ## replacing a node -/

theorem replace_at {v a : V} (w : V) : ∀ {l : List Step}, v.at l = some a → (replace v l w).at l = some w := by
  intro l
  induction l generalizing v with
  | nil => intro _; rfl
  | cons s l ih =>
    intro h
    simp only [V.at] at h
    match hc : v.child s, h with
    | some d, h =>
      simp only [replace, hc, V.at, child_put_self hc]
      exact ih h
    | none, h => simp at h

theorem replace_frame {v a : V} (w : V) : ∀ {l : List Step}, v.at l = some a → ∀ m, Parts l m → (replace v l w).at m = v.at m := by
  intro l
  induction l generalizing v with
  | nil => intro _ m hm; cases hm
  | cons s l ih =>
    intro h m hm
    simp only [V.at] at h
    match hc : v.child s, h with
    | some d, h =>
      simp only [replace, hc]
      cases hm with
      | here s t l m hne => simp only [V.at]; rw [child_put_ne hne]
      | there s l m h' => simp only [V.at]; rw [child_put_self hc, hc]; exact ih h m h'
    | none, h => simp at h

theorem replace_same {v a : V} : ∀ {l : List Step}, v.at l = some a → replace v l a = v := by
  intro l
  induction l generalizing v with
  | nil => intro h; simpa [V.at, replace] using h.symm
  | cons s l ih =>
    intro h
    simp only [V.at] at h
    match hc : v.child s, h with
    | some d, h => simp only [replace, hc]; rw [ih h, put_child hc]
    | none, h => simp at h

theorem at_append (v : V) (l m : List Step) : v.at (l ++ m) = (v.at l).bind (·.at m) := by
  induction l generalizing v with
  | nil => rfl
  | cons s l ih =>
    simp only [List.cons_append, V.at]
    cases v.child s with
    | none => rfl
    | some d => exact ih d

theorem replace_append {v a : V} (w : V) (m : List Step) : ∀ {l : List Step}, v.at l = some a → replace v (l ++ m) w = replace v l (replace a m w) := by
  intro l
  induction l generalizing v with
  | nil => intro h; simp [V.at] at h; subst h; rfl
  | cons s l ih =>
    intro h
    simp only [V.at] at h
    match hc : v.child s, h with
    | some d, h => simp only [List.cons_append, replace, hc]; rw [ih h]
    | none, h => simp at h

theorem modify_eq {α : Type} {v a : V} (f : V → V × R α) : ∀ {l : List Step}, v.at l = some a → v.modify f l = (replace v l (f a).1, (f a).2) := by
  intro l
  induction l generalizing v with
  | nil => intro h; simp [V.at] at h; subst h; rfl
  | cons s l ih =>
    intro h
    simp only [V.at] at h
    match hc : v.child s, h with
    | some d, h => simp only [V.modify, replace, hc]; rw [ih h]
    | none, h => simp at h

/-! ## Insert -/

theorem insertToArr_eq {α : Type} [HasNil α] (xs : List α) (i : Nat) (c : α) (h : i ≤ xs.length) : insertToArr xs i c = .ok (xs.take i ++ c :: xs.drop i) := by
  unfold insertToArr
  simp only [List.length_append, List.length_cons, List.length_nil]
  rw [if_pos (by omega)]
  have hl : (copyAt (xs ++ [HasNil.nilv]) (i + 1) ((xs ++ [HasNil.nilv]).drop i)).length = xs.length + 1 := by
    simp [copyAt]; omega
  rw [if_pos (by rw [hl]; omega)]
  congr 1
  apply List.ext_getElem?
  intro j
  simp only [copyAt]
  rw [List.getElem?_set]
  by_cases hj : i = j
  · subst hj
    rw [if_pos rfl, if_pos (by rw [← copyAt, hl]; omega)]
    rw [List.getElem?_append_right (by simp; omega)]
    simp [Nat.min_eq_left h]
  · rw [if_neg hj]
    rcases Nat.lt_or_gt_of_ne (Ne.symm hj) with hlt | hgt
    · rw [List.append_assoc, List.getElem?_append_left (by simp; omega)]
      rw [List.getElem?_take_of_lt (by omega), List.getElem?_append_left (by omega)]
      rw [List.getElem?_append_left (by simp; omega), List.getElem?_take_of_lt hlt]
    · rw [List.append_assoc, List.getElem?_append_right (by simp; omega)]
      rw [List.getElem?_append_right (l₁ := xs.take i) (by simp; omega)]
      simp only [List.length_take, List.length_append, List.length_cons, List.length_nil]
      rw [Nat.min_eq_left (by omega), Nat.min_eq_left (by omega)]
      have h1 : j - i = (j - (i + 1)) + 1 := by omega
      rw [h1, List.getElem?_cons_succ]
      generalize hk : j - (i + 1) = k
      rw [List.getElem?_drop]
      by_cases hk2 : k < xs.length - i
      · rw [List.getElem?_append_left (by simp; omega), List.getElem?_take_of_lt (by omega), List.getElem?_drop]
        rw [List.getElem?_append_left (by omega)]
      · rw [List.getElem?_append_right (by simp; omega), List.getElem?_eq_none (by simp; omega), List.getElem?_eq_none (by omega)]

theorem posForInsertBefore_eq (n : Nat) (z : Int) : posForInsertBefore n z = match index n z with | some j => (j : Int) | none => -1 := by
  refine Eq.trans ?_ (posForRead_eq n z)
  unfold posForInsertBefore posForRead
  by_cases h : n = 0
  · simp [h]
  · simp only [h, if_false]
    by_cases h0 : z = 0
    · subst h0; simp; omega
    · simp [h0]

theorem posForInsertAfter_eq (n : Nat) (z : Int) : posForInsertAfter n z = match index n z with
    | some j => ((j : Int) + 1, decide (z = -1))
    | none => (-1, false) := by
  unfold posForInsertAfter index
  by_cases h : n = 0
  · rw [if_pos h, if_neg (by omega), if_neg (by omega)]
  · rw [if_neg h]
    by_cases h1 : z = -1
    · rw [if_pos h1, if_neg (by omega), if_pos (by omega)]; simp [h1]; omega
    · rw [if_neg h1]
      by_cases h2 : z < 0
      · rw [if_pos h2]
        simp only
        by_cases h3 : z + n < 0
        · rw [if_pos h3, if_neg (by omega), if_neg (by omega)]
        · rw [if_neg h3, if_neg (by omega), if_pos (by omega)]
          simp [h1]; omega
      · rw [if_neg h2]
        by_cases h3 : z ≥ n
        · rw [if_pos h3, if_neg (by omega), if_neg (by omega)]
        · rw [if_neg h3, if_pos (by omega)]; simp [h1]; omega

/-- put `c` before position `i` -/
def ins (xs : List V) (i : Nat) (c : V) : List V := xs.take i ++ c :: xs.drop i

theorem insertLast_arr (after : Bool) (xs : List V) (c : V) (p : Param) : insertLast after (.arr xs) c p =
    match intOf p with
    | none => (.arr xs, .err (intErr p))
    | some z => match index xs.length z with
      | none => (.arr xs, .err .outOfRange)
      | some i =>
        let j := if after then i + 1 else i
        (.arr (xs.take j ++ c :: xs.drop j), .ok [.idx j]) := by
  unfold insertLast
  simp only [anyToInt_eq]
  cases hz : intOf p with
  | none => rfl
  | some z =>
    simp only
    cases after with
    | false =>
      simp only [Bool.false_eq_true, if_false, posForInsertBefore_eq]
      cases hi : index xs.length z with
      | none => simp
      | some i =>
        simp only [show ¬ ((i : Int) < 0) by omega, if_false, Int.toNat_natCast]
        rw [insertToArr_eq _ _ _ (Nat.le_of_lt (index_lt hi))]
    | true =>
      simp only [if_true, posForInsertAfter_eq]
      cases hi : index xs.length z with
      | none => simp
      | some i =>
        simp only [show ¬ ((i : Int) + 1 < 0) by omega, if_false]
        by_cases h1 : z = -1
        · subst h1
          have : i + 1 = xs.length := by
            have := index_lt hi
            unfold index at hi
            rw [if_neg (by omega)] at hi
            split at hi
            · simp at hi; omega
            · simp at hi
          simp [this]
        · simp only [h1, decide_false, Bool.false_eq_true, if_false]
          rw [show ((i : Int) + 1).toNat = i + 1 by omega, insertToArr_eq _ _ _ (index_lt hi)]

theorem insertLast_other (after : Bool) (v c : V) (p : Param) (h : ∀ xs, v ≠ .arr xs) :
    (∃ e, insertLast after v c p = (v, .err e)) ∨ (v = .nilp ∧ after = false ∧ insertLast after v c p = (v, .panic)) := by
  match v with
  | .arr xs => exact absurd rfl (h xs)
  | .nilp => cases after <;> simp [insertLast]
  | .notExist => simp [insertLast]
  | .obj _ _ _ => simp [insertLast]
  | .str _ => simp [insertLast]
  | .num _ _ => simp [insertLast]
  | .bool _ => simp [insertLast]
  | .null => simp [insertLast]

theorem insertAt_pre (E : Env) (after : Bool) (v c : V) (p : Param) : ∀ (ps pre : List Param),
    insertAt E after v c pre (ps ++ [p]) = insertAt E after v c (pre ++ ps) [p] := by
  intro ps
  induction ps with
  | nil => intro pre; simp
  | cons q qs ih =>
    intro pre
    rw [List.cons_append]
    conv => lhs; unfold insertAt
    rw [if_pos (by simp), ih]
    simp

theorem insertAt_one (E : Env) (after : Bool) (v c : V) (p : Param) : insertAt E after v c [] [p] = insertAt1 E after v c p := by
  unfold insertAt; simp

/-- What a modification of one array may do: put something at one place of one array, or nothing at all. -/
def ArrOut (P : List V → List V → Nat → Prop) (v : V) (r : V × R (List Step)) : Prop :=
  (∃ l xs ys i, r.2 = .ok (l ++ [.idx i]) ∧ v.at l = some (.arr xs) ∧ P xs ys i ∧ r.1 = replace v l (.arr ys)) ∨
  (∃ e, r = (v, .err e)) ∨ (r = (v, .panic) ∧ ∃ m, v.at m = some .nilp)

def InsP (c : V) (xs ys : List V) (i : Nat) : Prop := i ≤ xs.length ∧ ys = xs.take i ++ c :: xs.drop i

theorem insertLast_out (after : Bool) (v c : V) (p : Param) : ArrOut (InsP c) v (insertLast after v c p) := by
  by_cases h : ∃ xs, v = .arr xs
  · obtain ⟨xs, rfl⟩ := h
    rw [insertLast_arr]
    cases hz : intOf p with
    | none => right; left; exact ⟨_, rfl⟩
    | some z =>
      simp only
      cases hi : index xs.length z with
      | none => right; left; exact ⟨_, rfl⟩
      | some i =>
        have := index_lt hi
        left
        refine ⟨[], xs, _, if after then i + 1 else i, rfl, rfl, ⟨by split <;> omega, rfl⟩, rfl⟩
  · rcases insertLast_other after v c p (fun xs h' => h ⟨xs, h'⟩) with h | ⟨h0, _, h⟩
    · exact .inr (.inl h)
    · exact .inr (.inr ⟨h, [], by rw [h0]; rfl⟩)

theorem locArray_ok {E : Env} {v : V} {ps : List Param} {l : List Step} :
    locArray E v ps = .ok l ↔ Addr v ps l ∧ ∃ xs, v.at l = some (.arr xs) := by
  unfold locArray
  constructor
  · intro h
    match hr : (resolve E false v ps).2 with
    | .ok m =>
      rw [hr] at h
      simp only at h
      have ha := (resolve_iff E v ps m).1 hr
      match hm : v.at m with
      | some (.arr xs) => rw [hm] at h; simp at h; subst h; exact ⟨ha, xs, hm⟩
      | some .nilp => rw [hm] at h; simp at h
      | some .notExist => rw [hm] at h; simp at h
      | some (.str _) => rw [hm] at h; simp at h
      | some (.num _ _) => rw [hm] at h; simp at h
      | some (.bool _) => rw [hm] at h; simp at h
      | some .null => rw [hm] at h; simp at h
      | some (.obj _ _ _) => rw [hm] at h; simp at h
      | none => rw [hm] at h; simp at h
    | .err e => rw [hr] at h; simp at h
    | .panic => rw [hr] at h; simp at h
    | .diverge => rw [hr] at h; simp at h
  · rintro ⟨h, xs, hx⟩
    rw [(resolve_iff E v ps l).2 h]
    simp [hx]

theorem locArray_cases (E : Env) (v : V) (ps : List Param) :
    (∃ l, locArray E v ps = .ok l) ∨ (∃ e, locArray E v ps = .err e) ∨ (locArray E v ps = .panic ∧ (ps = [] ∨ ∃ m, v.at m = some .nilp)) := by
  unfold locArray
  rcases resolve_cases E ps v with ⟨l, h⟩ | ⟨e, h⟩ | ⟨h, hn⟩
  · obtain ⟨c, hc⟩ := addr_at ((resolve_iff E v ps l).1 h)
    rw [h]
    simp only [hc]
    cases c with
    | nilp => exact .inr (.inr ⟨rfl, .inr ⟨l, hc⟩⟩)
    | arr xs => exact .inl ⟨_, rfl⟩
    | _ => exact .inr (.inl ⟨_, rfl⟩)
  · rw [h]; exact .inr (.inl ⟨_, rfl⟩)
  · rw [h]; exact .inr (.inr ⟨rfl, hn⟩)

theorem arrOut_lift {P : List V → List V → Nat → Prop} {v a : V} {l : List Step} {r : V × R (List Step)} (h : v.at l = some a) (hr : ArrOut P a r) :
    ArrOut P v (prefixLoc l (replace v l r.1, r.2)) := by
  rcases hr with ⟨m, xs, ys, i, h1, h2, h3, h4⟩ | ⟨e, h1⟩ | ⟨h1, m, h2⟩
  · left
    refine ⟨l ++ m, xs, ys, i, ?_, ?_, h3, ?_⟩
    · simp [prefixLoc, h1]
    · rw [at_append, h]; exact h2
    · simp only [prefixLoc]
      rw [replace_append _ _ h, h4]
  · right; left
    exact ⟨e, by rw [h1]; simp [prefixLoc, replace_same h]⟩
  · right; right
    exact ⟨by rw [h1]; simp [prefixLoc, replace_same h], l ++ m, by rw [at_append, h]; exact h2⟩

theorem locArray_pre {E : Env} {v : V} {a : Param} {pre : List Param} {f : V → V × R (List Step)} {P : List V → List V → Nat → Prop}
    (hf : ∀ w, ArrOut P w (f w)) :
    ArrOut P v (match locArray E v (a :: pre) with
      | .ok l => prefixLoc l (v.modify f l)
      | .err e => (v, .err e)
      | .panic => (v, .panic)
      | .diverge => (v, .diverge)) := by
  rcases locArray_cases E v (a :: pre) with ⟨l, h⟩ | ⟨e, h⟩ | ⟨h, hn⟩
  · rw [h]
    obtain ⟨_, xs, hx⟩ := locArray_ok.1 h
    simp only
    rw [modify_eq _ hx]
    exact arrOut_lift hx (hf _)
  · rw [h]; exact .inr (.inl ⟨_, rfl⟩)
  · rw [h]
    refine .inr (.inr ⟨rfl, ?_⟩)
    rcases hn with hn | hn
    · cases hn
    · exact hn

theorem insertAt1_slice (E : Env) (after : Bool) (v c : V) (q qs) : insertAt1 E after v c (.slice (q :: qs)) = insertAt E after v c [] (q :: qs) := by
  conv => lhs; unfold insertAt1
  exact if_neg (by simp)
theorem insertAt1_empty (E : Env) (after : Bool) (v c : V) : insertAt1 E after v c (.slice []) = insertLast after v c .nil := by
  unfold insertAt1; rfl
theorem insertAt1_nonslice (E : Env) (after : Bool) (v c : V) (p : Param) (h : p.isSlice = false) : insertAt1 E after v c p = insertLast after v c p := by
  cases p with
  | slice _ => simp [Param.isSlice] at h
  | _ => rfl

theorem insertAt_last (E : Env) (after : Bool) (v c : V) (a : Param) (pre : List Param) (p : Param) :
    insertAt E after v c (a :: pre) [p] =
      if a.isSlice then (v, .err .multipleParam)
      else match v with
      | .nilp => if after then (v, .err .valueUninitialized) else (v, .panic)
      | .notExist => (v, .err .valueUninitialized)
      | v => match locArray E v (a :: pre) with
        | .ok l => prefixLoc l (v.modify (fun w => insertAt1 E after w c p) l)
        | .err e => (v, .err e)
        | .panic => (v, .panic)
        | .diverge => (v, .diverge) := by
  conv => lhs; unfold insertAt
  rw [if_neg (by simp)]
  rfl

mutual
theorem insertAt1_out (E : Env) (after : Bool) (c : V) : ∀ (p : Param) (v : V), ArrOut (InsP c) v (insertAt1 E after v c p)
  | .slice qs, v => by
    match qs with
    | [] => rw [insertAt1_empty]; exact insertLast_out ..
    | q :: qs =>
      rw [insertAt1_slice]
      exact insertAt_out E after c (q :: qs) v [] (by simp)
  | .nil, v => insertLast_out after v c .nil
  | .int i, v => insertLast_out after v c (.int i)
  | .uint i, v => insertLast_out after v c (.uint i)
  | .str k, v => insertLast_out after v c (.str k)
  | .other, v => insertLast_out after v c .other
termination_by structural p => p
theorem insertAt_out (E : Env) (after : Bool) (c : V) : ∀ (ps : List Param) (v : V) (pre : List Param), ps ≠ [] →
    ArrOut (InsP c) v (insertAt E after v c pre ps)
  | [], _, _, h => absurd rfl h
  | p :: rest, v, pre, _ => by
    have h1 := insertAt1_out E after c p
    have h2 := insertAt_out E after c rest v
    match rest with
    | q :: qs =>
      unfold insertAt
      rw [if_pos (by simp)]
      exact h2 _ (by simp)
    | [] =>
      match pre with
      | [] => rw [insertAt_one]; exact h1 v
      | a :: pre =>
        rw [insertAt_last]
        by_cases ha : a.isSlice = true
        · rw [if_pos ha]; exact .inr (.inl ⟨_, rfl⟩)
        · rw [if_neg ha]
          split
          · cases after
            · exact .inr (.inr ⟨rfl, [], rfl⟩)
            · exact .inr (.inl ⟨_, rfl⟩)
          · exact .inr (.inl ⟨_, rfl⟩)
          · exact locArray_pre (P := InsP c) (fun w => h1 w)
termination_by structural ps => ps
end

/-- Insert on the array addressed by `pre`, the last parameter being the integer `z` -/
theorem insertAt_path (E : Env) (after : Bool) (v c : V) (pre : List Param) (p : Param) (l : List Step) (xs : List V) (z : Int)
    (hp : Plain pre) (ha : pre = [] ∧ l = [] ∨ Addr v pre l) (hx : v.at l = some (.arr xs)) (hz : intOf p = some z) :
    insertAt E after v c [] (pre ++ [p]) = match index xs.length z with
      | none => (v, .err .outOfRange)
      | some i =>
        let j := if after then i + 1 else i
        (replace v l (.arr (xs.take j ++ c :: xs.drop j)), .ok (l ++ [.idx j])) := by
  have hps : p.isSlice = false := by cases p <;> simp [intOf, Param.isSlice] at hz ⊢
  rcases ha with ⟨rfl, rfl⟩ | ha
  · simp [V.at] at hx
    subst hx
    rw [List.nil_append, insertAt_one, insertAt1_nonslice _ _ _ _ _ hps, insertLast_arr, hz]
    simp only
    cases index xs.length z <;> rfl
  · rw [insertAt_pre, List.nil_append]
    match pre, hp, ha with
    | [], _, ha => cases ha
    | a :: pre, hp, ha =>
      rw [insertAt_last, hp a (by simp)]
      simp only [Bool.false_eq_true, if_false]
      have hv : v ≠ .nilp ∧ v ≠ .notExist := by
        constructor
        · rintro rfl
          have := addr_not_scalar ha
          simp at this
        · rintro rfl
          have := addr_not_scalar ha
          simp at this
      split
      · exact absurd rfl hv.1
      · exact absurd rfl hv.2
      · rw [locArray_ok.2 ⟨ha, xs, hx⟩]
        simp only
        rw [modify_eq _ hx, insertAt1_nonslice _ _ _ _ _ hps, insertLast_arr, hz]
        simp only
        cases index xs.length z with
        | none => simp [prefixLoc, replace_same hx]
        | some i => simp [prefixLoc]

/-! ## Append -/

def ApdP (beg : Bool) (c : V) (xs ys : List V) (i : Nat) : Prop := if beg then i = 0 ∧ ys = c :: xs else i = xs.length ∧ ys = xs ++ [c]

theorem appendTo_arr (beg : Bool) (xs : List V) (c : V) : appendTo beg (.arr xs) c =
    if beg then (.arr (c :: xs), .ok [.idx 0]) else (.arr (xs ++ [c]), .ok [.idx xs.length]) := by
  unfold appendTo
  cases beg with
  | false => simp
  | true =>
    cases xs with
    | nil => simp
    | cons x xs => simp [insertToArr_eq _ 0 c (Nat.zero_le _)]


theorem appendTo_out (beg : Bool) (xs : List V) (c : V) : ArrOut (ApdP beg c) (.arr xs) (appendTo beg (.arr xs) c) := by
  rw [appendTo_arr]
  left
  cases beg
  · exact ⟨[], xs, xs ++ [c], xs.length, rfl, rfl, ⟨rfl, rfl⟩, rfl⟩
  · exact ⟨[], xs, c :: xs, 0, rfl, rfl, ⟨rfl, rfl⟩, rfl⟩

/-- what Append does: put `c` at an end of an existing array, or create the array and put `c` in, or fail and change nothing -/
def ApdOut (E : Env) (beg : Bool) (c v : V) (r : V × R (List Step)) : Prop :=
  (∃ l xs ys i, r.2 = .ok (l ++ [.idx i]) ∧ v.at l = some (.arr xs) ∧ ApdP beg c xs ys i ∧ r.1 = replace v l (.arr ys)) ∨
  (∃ ps v1 l, get E v ps = .err .notFound ∧ SetsTo E newArray v ps v1 l ∧ r = (replace v1 l (.arr [c]), .ok (l ++ [.idx 0]))) ∨
  (∃ e, r = (v, .err e)) ∨ (r = (v, .panic) ∧ ∃ m, v.at m = some .nilp)

theorem arrOut_apd {E : Env} {beg : Bool} {c v : V} {r : V × R (List Step)} (h : ArrOut (ApdP beg c) v r) : ApdOut E beg c v r := by
  rcases h with h | h | h
  · exact .inl h
  · exact .inr (.inr (.inl h))
  · exact .inr (.inr (.inr h))

theorem locArray_notFound {E : Env} {v : V} {ps : List Param} (h : locArray E v ps = .err .notFound) : get E v ps = .err .notFound := by
  unfold locArray at h
  unfold get getC fetch
  match hr : (resolve E false v ps).2, h with
  | .ok l, h =>
    obtain ⟨c, hc⟩ := addr_at ((resolve_iff E v ps l).1 hr)
    simp only [hc] at h
    cases c <;> simp at h
  | .err e, h => simp at h; subst h; rfl
  | .panic, h => simp at h
  | .diverge, h => simp at h

theorem appendPath_out (E : Env) (beg : Bool) (c v : V) (a : Param) (ps : List Param) : ApdOut E beg c v (appendPath E beg v c (a :: ps)) := by
  unfold appendPath
  rcases locArray_cases E v (a :: ps) with ⟨l, h⟩ | ⟨e, h⟩ | ⟨h, hn⟩
  · rw [h]
    obtain ⟨_, xs, hx⟩ := locArray_ok.1 h
    simp only
    rw [modify_eq _ hx]
    exact arrOut_apd (arrOut_lift hx (appendTo_out ..))
  · by_cases he : e = .notFound
    · subst he
      rw [h]
      simp only
      rcases setAt_spec E newArray (a :: ps) v with h' | ⟨l, h1, h2⟩ | ⟨e, h'⟩
      · cases h'
      · have hx := setsTo_at h2
        have hs : setAt E v newArray (a :: ps) = ((setAt E v newArray (a :: ps)).1, .ok l) := Prod.ext rfl h1
        rw [hs]
        simp only
        right; left
        refine ⟨a :: ps, _, l, locArray_notFound h, h2, ?_⟩
        rw [modify_eq _ hx, newArray, appendTo_arr]
        cases beg <;> simp [prefixLoc]
      · rw [h']; exact .inr (.inr (.inl ⟨_, rfl⟩))
    · rw [h]
      cases e <;> first | (exact absurd rfl he) | exact .inr (.inr (.inl ⟨_, rfl⟩))
  · rw [h]
    refine .inr (.inr (.inr ⟨rfl, ?_⟩))
    rcases hn with hn | hn
    · cases hn
    · exact hn

theorem append_nil_out (E : Env) (beg : Bool) (v c : V) : ApdOut E beg c v (appendAt E beg v c []) := by
  unfold appendAt
  match v with
  | .arr xs => exact arrOut_apd (appendTo_out beg xs c)
  | .nilp =>
    cases beg
    · exact .inr (.inr (.inr ⟨rfl, [], rfl⟩))
    · exact .inr (.inr (.inl ⟨_, rfl⟩))
  | .notExist => exact .inr (.inr (.inl ⟨_, rfl⟩))
  | .str _ => exact .inr (.inr (.inl ⟨_, rfl⟩))
  | .num _ _ => exact .inr (.inr (.inl ⟨_, rfl⟩))
  | .bool _ => exact .inr (.inr (.inl ⟨_, rfl⟩))
  | .null => exact .inr (.inr (.inl ⟨_, rfl⟩))
  | .obj _ _ _ => exact .inr (.inr (.inl ⟨_, rfl⟩))

theorem appendAt_cons (E : Env) (beg : Bool) (v c : V) (p : Param) (rest : List Param) (h1 : v ≠ .nilp) (h2 : v ≠ .notExist) :
    appendAt E beg v c (p :: rest) = if p.isSlice && !rest.isEmpty then (v, .err .multipleParam)
      else if p.isSlice then appendAt1 E beg v c p
      else appendPath E beg v c (p :: rest) := by
  conv => lhs; unfold appendAt
  split
  · exact absurd rfl h1
  · exact absurd rfl h2
  · rfl

mutual
theorem appendAt1_out (E : Env) (beg : Bool) (c : V) : ∀ (p : Param) (v : V), ApdOut E beg c v (appendAt1 E beg v c p)
  | .slice qs, v => by unfold appendAt1; exact appendAt_out E beg c qs v
  | .nil, v => appendPath_out E beg c v .nil []
  | .int i, v => appendPath_out E beg c v (.int i) []
  | .uint i, v => appendPath_out E beg c v (.uint i) []
  | .str k, v => appendPath_out E beg c v (.str k) []
  | .other, v => appendPath_out E beg c v .other []
termination_by structural p => p
theorem appendAt_out (E : Env) (beg : Bool) (c : V) : ∀ (ps : List Param) (v : V), ApdOut E beg c v (appendAt E beg v c ps)
  | [], v => append_nil_out E beg v c
  | p :: rest, v => by
    have h1 := appendAt1_out E beg c p v
    by_cases hn : v = .nilp
    · subst hn
      cases beg
      · exact .inr (.inr (.inr ⟨rfl, [], rfl⟩))
      · exact .inr (.inr (.inl ⟨_, rfl⟩))
    · by_cases hne : v = .notExist
      · subst hne; exact .inr (.inr (.inl ⟨_, rfl⟩))
      · rw [appendAt_cons _ _ _ _ _ _ hn hne]
        split
        · exact .inr (.inr (.inl ⟨_, rfl⟩))
        · split
          · exact h1
          · exact appendPath_out ..
termination_by structural ps => ps
end

/-! ## Delete -/

theorem deleteInArr_eq {α : Type} [HasNil α] (xs : List α) (i : Nat) (h : i < xs.length) : deleteInArr xs i = .ok (xs.eraseIdx i) := by
  unfold deleteInArr
  rw [if_pos h]
  simp only
  congr 1
  apply List.ext_getElem?
  intro j
  rw [List.getElem?_eraseIdx]
  by_cases hj : j < xs.length - 1
  · rw [List.getElem?_take_of_lt hj]
    simp only [copyAt, List.length_set]
    split
    · rename_i hlt
      rw [List.append_assoc, List.getElem?_append_left (by simp; omega), List.getElem?_take_of_lt hlt, List.getElem?_set_ne (by omega)]
    · rename_i hge
      rw [List.append_assoc, List.getElem?_append_right (by simp; omega)]
      simp only [List.length_take, List.length_set]
      rw [Nat.min_eq_left (by omega), List.getElem?_append_left (by simp; omega), List.getElem?_take_of_lt (by omega), List.getElem?_drop,
        List.getElem?_set_ne (by omega)]
      congr 1; omega
  · rw [List.getElem?_eq_none (by simp [copyAt]; omega)]
    split
    · omega
    · rw [List.getElem?_eq_none (by omega)]

/-- removing one child: from an object the member, from an array the element -/
inductive DelStep (E : Env) : V → Step → V → Prop
  | key (n kvs low k) : (lookup k kvs).isSome = true → DelStep E (.obj n kvs low) (.key k) (.obj n (erase k kvs) (delCaseless E low k))
  | idx (xs i) : i < List.length xs → DelStep E (.arr xs) (.idx i) (.arr (xs.eraseIdx i))

theorem deleteLast_arr (E : Env) (cl : Bool) (xs : List V) (p : Param) : deleteLast E cl (.arr xs) p =
    match intOf p with
    | none => (.arr xs, .err (intErr p))
    | some z => match index xs.length z with
      | none => (.arr xs, .err .outOfRange)
      | some i => (.arr (xs.eraseIdx i), .ok ()) := by
  unfold deleteLast
  simp only [anyToInt_eq]
  cases hz : intOf p with
  | none => rfl
  | some z =>
    simp only [posForRead_eq]
    cases hi : index xs.length z with
    | none => simp
    | some i => simp only [show ¬ ((i : Int) < 0) by omega, if_false, Int.toNat_natCast, deleteInArr_eq _ _ (index_lt hi)]

theorem deleteLast_obj (E : Env) (n kvs low) (p : Param) : deleteLast E false (.obj n kvs low) p =
    match p with
    | .str k => match lookup k kvs with
      | some _ => (.obj n (erase k kvs) (delCaseless E low k), .ok ())
      | none => (.obj n kvs low, .err .notFound)
    | _ => (.obj n kvs low, .err .parameterError) := by
  unfold deleteLast
  cases p <;> simp only [anyToString]
  rename_i k
  simp only [delKey, findKey]
  cases lookup k kvs <;> simp

def DelOut (E : Env) (v : V) (r : V × R Unit) : Prop :=
  (∃ l a s b, r.2 = .ok () ∧ v.at l = some a ∧ DelStep E a s b ∧ r.1 = replace v l b) ∨
  (∃ e, r = (v, .err e)) ∨ (r = (v, .panic) ∧ ∃ m, v.at m = some .nilp)

theorem deleteLast_out (E : Env) (v : V) (p : Param) : DelOut E v (deleteLast E false v p) := by
  match v with
  | .arr xs =>
    rw [deleteLast_arr]
    cases hz : intOf p with
    | none => exact .inr (.inl ⟨_, rfl⟩)
    | some z =>
      simp only
      cases hi : index xs.length z with
      | none => exact .inr (.inl ⟨_, rfl⟩)
      | some i => exact .inl ⟨[], .arr xs, .idx i, _, rfl, rfl, .idx xs i (index_lt hi), rfl⟩
  | .obj n kvs low =>
    rw [deleteLast_obj]
    cases p with
    | str k =>
      simp only
      cases hl : lookup k kvs with
      | none => exact .inr (.inl ⟨_, rfl⟩)
      | some e => exact .inl ⟨[], .obj n kvs low, .key k, _, rfl, rfl, .key n kvs low k (by simp [hl]), rfl⟩
    | _ => exact .inr (.inl ⟨_, rfl⟩)
  | .nilp => exact .inr (.inr ⟨rfl, [], rfl⟩)
  | .notExist => exact .inr (.inl ⟨_, rfl⟩)
  | .str _ => exact .inr (.inl ⟨_, rfl⟩)
  | .num _ _ => exact .inr (.inl ⟨_, rfl⟩)
  | .bool _ => exact .inr (.inl ⟨_, rfl⟩)
  | .null => exact .inr (.inl ⟨_, rfl⟩)

theorem delOut_lift {E : Env} {v a : V} {l : List Step} {r : V × R Unit} (h : v.at l = some a) (hr : DelOut E a r) :
    DelOut E v (replace v l r.1, r.2) := by
  rcases hr with ⟨m, b, s, d, h1, h2, h3, h4⟩ | ⟨e, h1⟩ | ⟨h1, m, h2⟩
  · left
    refine ⟨l ++ m, b, s, d, h1, by rw [at_append, h]; exact h2, h3, ?_⟩
    simp only
    rw [replace_append _ _ h, h4]
  · right; left
    exact ⟨e, by rw [h1]; simp [replace_same h]⟩
  · right; right
    exact ⟨by rw [h1]; simp [replace_same h], l ++ m, by rw [at_append, h]; exact h2⟩

theorem deleteAt1_slice (E : Env) (cl : Bool) (v : V) (q qs) : deleteAt1 E cl v (.slice (q :: qs)) = deleteAt E cl v [] (q :: qs) := by
  conv => lhs; unfold deleteAt1
  exact if_neg (by simp)
theorem deleteAt1_empty (E : Env) (cl : Bool) (v : V) : deleteAt1 E cl v (.slice []) = deleteLast E cl v .nil := by
  unfold deleteAt1; rfl
theorem deleteAt1_nonslice (E : Env) (cl : Bool) (v : V) (p : Param) (h : p.isSlice = false) : deleteAt1 E cl v p = deleteLast E cl v p := by
  cases p with
  | slice _ => simp [Param.isSlice] at h
  | _ => rfl

theorem deleteAt_pre (E : Env) (cl : Bool) (v : V) (p : Param) : ∀ (ps pre : List Param),
    deleteAt E cl v pre (ps ++ [p]) = deleteAt E cl v (pre ++ ps) [p] := by
  intro ps
  induction ps with
  | nil => intro pre; simp
  | cons q qs ih =>
    intro pre
    rw [List.cons_append]
    conv => lhs; unfold deleteAt
    rw [if_pos (by simp), ih]
    simp

theorem deleteAt_one (E : Env) (cl : Bool) (v : V) (p : Param) : deleteAt E cl v [] [p] = deleteAt1 E cl v p := by
  unfold deleteAt; simp

theorem deleteAt_last (E : Env) (v : V) (a : Param) (pre : List Param) (p : Param) :
    deleteAt E false v (a :: pre) [p] =
      if a.isSlice then (v, .err .multipleParam)
      else match (resolve E false v (a :: pre)).2 with
        | .ok l => v.modify (fun w => deleteAt1 E false w p) l
        | .err e => (v, .err e)
        | .panic => (v, .panic)
        | .diverge => (v, .diverge) := by
  conv => lhs; unfold deleteAt
  rw [if_neg (by simp)]
  simp only
  have h := resolve_plain E (a :: pre) v
  cases hr : resolve E false v (a :: pre) with
  | mk w r =>
    rw [hr] at h
    simp only at h
    subst h
    cases r <;> rfl

mutual
theorem deleteAt1_out (E : Env) : ∀ (p : Param) (v : V), DelOut E v (deleteAt1 E false v p)
  | .slice qs, v => by
    match qs with
    | [] => rw [deleteAt1_empty]; exact deleteLast_out ..
    | q :: qs =>
      rw [deleteAt1_slice]
      exact deleteAt_out E (q :: qs) v [] (by simp)
  | .nil, v => deleteLast_out E v .nil
  | .int i, v => deleteLast_out E v (.int i)
  | .uint i, v => deleteLast_out E v (.uint i)
  | .str k, v => deleteLast_out E v (.str k)
  | .other, v => deleteLast_out E v .other
termination_by structural p => p
theorem deleteAt_out (E : Env) : ∀ (ps : List Param) (v : V) (pre : List Param), ps ≠ [] → DelOut E v (deleteAt E false v pre ps)
  | [], _, _, h => absurd rfl h
  | p :: rest, v, pre, _ => by
    have h1 := deleteAt1_out E p
    have h2 := deleteAt_out E rest v
    match rest with
    | q :: qs =>
      unfold deleteAt
      rw [if_pos (by simp)]
      exact h2 _ (by simp)
    | [] =>
      match pre with
      | [] => rw [deleteAt_one]; exact h1 v
      | a :: pre =>
        rw [deleteAt_last]
        by_cases ha : a.isSlice = true
        · rw [if_pos ha]; exact .inr (.inl ⟨_, rfl⟩)
        · rw [if_neg ha]
          rcases resolve_cases E (a :: pre) v with ⟨l, h⟩ | ⟨e, h⟩ | ⟨h, hn⟩
          · rw [h]
            obtain ⟨w, hw⟩ := addr_at ((resolve_iff E v _ l).1 h)
            simp only
            rw [modify_eq _ hw]
            exact delOut_lift hw (h1 w)
          · rw [h]; exact .inr (.inl ⟨_, rfl⟩)
          · rw [h]
            refine .inr (.inr ⟨rfl, ?_⟩)
            rcases hn with hn | hn
            · cases hn
            · exact hn
termination_by structural ps => ps
end

/-- a path without inner slices addresses the child `s` of the node its beginning addresses -/
theorem addr_snoc {v : V} (p : Param) : ∀ {pre : List Param} {m : List Step}, Plain (pre ++ [p]) → (Addr v (pre ++ [p]) m ↔
    ∃ l a s, m = l ++ [s] ∧ (pre = [] ∧ l = [] ∨ Addr v pre l) ∧ v.at l = some a ∧ Addr a [p] [s]) := by
  intro pre
  induction pre generalizing v with
  | nil =>
    intro m hp
    constructor
    · intro h
      simp only [List.nil_append] at h
      cases h with
      | slice _ q qs => exact absurd (hp (.slice (q :: qs)) (by simp)) (by simp [Param.isSlice])
      | key n kvs low k c h => exact ⟨[], _, _, rfl, .inl ⟨rfl, rfl⟩, rfl, .key _ _ _ _ _ h⟩
      | idx xs p z i h1 h2 => exact ⟨[], _, _, rfl, .inl ⟨rfl, rfl⟩, rfl, .idx _ _ _ _ h1 h2⟩
    · rintro ⟨l, a, s, rfl, ⟨_, rfl⟩ | h, h2, h3⟩
      · simp [V.at] at h2; subst h2; exact h3
      · cases h
  | cons q qs ih =>
    intro m hp
    have hq : q.isSlice = false := hp q (by simp)
    have hp' : Plain (qs ++ [p]) := fun x hx => hp x (by simp at hx ⊢; rcases hx with h | h <;> simp [h])
    constructor
    · intro h
      rw [List.cons_append] at h
      obtain ⟨r, rs, hrs⟩ : ∃ r rs, qs ++ [p] = r :: rs := by cases qs <;> simp
      rw [hrs] at h
      cases h with
      | keyCons n kvs low k c _ _ l h1 h2 =>
        rw [← hrs] at h2
        obtain ⟨l', a, s, rfl, h3, h4, h5⟩ := (ih hp').1 h2
        refine ⟨.key k :: l', a, s, rfl, .inr ?_, by simp [V.at, h1, h4], h5⟩
        rcases h3 with ⟨rfl, rfl⟩ | h3
        · exact .key _ _ _ _ _ h1
        · match qs, h3 with
          | x :: xs, h3 => exact .keyCons _ _ _ _ _ _ _ _ h1 h3
          | [], h3 => cases h3
      | idxCons xs _ z i c _ _ l hz hi h1 h2 =>
        rw [← hrs] at h2
        obtain ⟨l', a, s, rfl, h3, h4, h5⟩ := (ih hp').1 h2
        refine ⟨.idx i :: l', a, s, rfl, .inr ?_, by simp [V.at, h1, h4], h5⟩
        rcases h3 with ⟨rfl, rfl⟩ | h3
        · exact .idx _ _ _ _ hz hi
        · match qs, h3 with
          | x :: xs, h3 => exact .idxCons _ _ _ _ _ _ _ _ hz hi h1 h3
          | [], h3 => cases h3
    · rintro ⟨l, a, s, rfl, ⟨h, _⟩ | h, h2, h3⟩
      · cases h
      · rw [List.cons_append]
        obtain ⟨r, rs, hrs⟩ : ∃ r rs, qs ++ [p] = r :: rs := by cases qs <;> simp
        cases h with
        | slice => simp [Param.isSlice] at hq
        | key n kvs low k c h1 =>
          simp only [V.at, h1] at h2
          simp at h2; subst h2
          exact .keyCons _ _ _ _ _ _ _ _ h1 h3
        | idx xs _ z i hz hi =>
          simp only [V.at] at h2
          match hc : (V.arr xs).child (.idx i), h2 with
          | some c, h2 => simp at h2; subst h2; exact .idxCons _ _ _ _ _ _ _ _ hz hi hc h3
          | none, h2 => simp at h2
        | keyCons n kvs low k c x xs l h1 h =>
          simp only [V.at, h1] at h2
          rw [hrs]
          exact .keyCons _ _ _ _ _ _ _ _ h1 (by rw [← hrs]; exact (ih hp').2 ⟨l, a, s, rfl, .inr h, h2, h3⟩)
        | idxCons xs _ z i c y ys l hz hi h1 h =>
          simp only [V.at, h1] at h2
          rw [hrs]
          exact .idxCons _ _ _ _ _ _ _ _ hz hi h1 (by rw [← hrs]; exact (ih hp').2 ⟨l, a, s, rfl, .inr h, h2, h3⟩)

theorem deleteLast_addr {E : Env} {a : V} {p : Param} {s : Step} (hp : p.isSlice = false) (h : Addr a [p] [s]) :
    ∃ b, DelStep E a s b ∧ deleteLast E false a p = (b, .ok ()) := by
  cases h with
  | slice => simp [Param.isSlice] at hp
  | key n kvs low k c h =>
    rw [child_key] at h
    rw [deleteLast_obj]
    match hl : lookup k kvs, h with
    | some e, h => exact ⟨_, .key _ _ _ _ (by simp [hl]), by simp [hl]⟩
    | none, h => simp at h
  | idx xs p z i hz hi =>
    rw [deleteLast_arr, hz]
    exact ⟨_, .idx _ _ (index_lt hi), by simp [hi]⟩

/-- Delete on a path that addresses something -/
theorem deleteAt_path (E : Env) (v : V) (ps : List Param) (m : List Step) (hp : Plain ps) (h : Addr v ps m) :
    ∃ l a s b, m = l ++ [s] ∧ v.at l = some a ∧ DelStep E a s b ∧ deleteAt E false v [] ps = (replace v l b, .ok ()) := by
  have hne : ps ≠ [] := by rintro rfl; cases h
  obtain ⟨pre, p, rfl⟩ : ∃ pre p, ps = pre ++ [p] := ⟨ps.dropLast, ps.getLast hne, (List.dropLast_concat_getLast hne).symm⟩
  have hps : p.isSlice = false := hp p (by simp)
  obtain ⟨l, a, s, rfl, h1, h2, h3⟩ := (addr_snoc p hp).1 h
  obtain ⟨b, hb, hd⟩ := deleteLast_addr (E := E) hps h3
  refine ⟨l, a, s, b, rfl, h2, hb, ?_⟩
  rw [deleteAt_pre, List.nil_append]
  rcases h1 with ⟨rfl, rfl⟩ | h1
  · simp [V.at] at h2; subst h2
    rw [deleteAt_one, deleteAt1_nonslice _ _ _ _ hps, hd]; rfl
  · match pre, hp, h1 with
    | [], _, h1 => cases h1
    | q :: qs, hp, h1 =>
      rw [deleteAt_last, hp q (by simp), (resolve_iff E v _ l).2 h1]
      simp only [Bool.false_eq_true, if_false]
      rw [modify_eq _ h2, deleteAt1_nonslice _ _ _ _ hps, hd]

/-- Delete succeeds only on a path that addresses something -/
theorem deleteAt_ok (E : Env) (v : V) (ps : List Param) (hp : Plain ps) (hne : ps ≠ []) (h : (deleteAt E false v [] ps).2 = .ok ()) :
    ∃ m, Addr v ps m := by
  obtain ⟨pre, p, rfl⟩ : ∃ pre p, ps = pre ++ [p] := ⟨ps.dropLast, ps.getLast hne, (List.dropLast_concat_getLast hne).symm⟩
  have hps : p.isSlice = false := hp p (by simp)
  have key : ∀ a, (deleteLast E false a p).2 = .ok () → ∃ s, Addr a [p] [s] := by
    intro a ha
    match a, ha with
    | .arr xs, ha =>
      rw [deleteLast_arr] at ha
      match hz : intOf p, ha with
      | some z, ha =>
        simp only at ha
        match hi : index xs.length z, ha with
        | some i, ha => exact ⟨_, .idx _ _ _ _ hz hi⟩
        | none, ha => simp at ha
      | none, ha => simp at ha
    | .obj n kvs low, ha =>
      rw [deleteLast_obj] at ha
      cases p with
      | str k =>
        simp only at ha
        match hl : lookup k kvs, ha with
        | some e, ha => exact ⟨_, .key _ _ _ _ e.v (by simp [child_key, hl])⟩
        | none, ha => simp at ha
      | _ => simp at ha
    | .nilp, ha => simp [deleteLast] at ha
    | .notExist, ha => simp [deleteLast] at ha
    | .str _, ha => simp [deleteLast] at ha
    | .num _ _, ha => simp [deleteLast] at ha
    | .bool _, ha => simp [deleteLast] at ha
    | .null, ha => simp [deleteLast] at ha
  rw [deleteAt_pre, List.nil_append] at h
  match pre, hp, h with
  | [], hp, h =>
    rw [deleteAt_one, deleteAt1_nonslice _ _ _ _ hps] at h
    obtain ⟨s, hs⟩ := key v h
    exact ⟨_, hs⟩
  | q :: qs, hp, h =>
    rw [deleteAt_last, hp q (by simp)] at h
    simp only [Bool.false_eq_true, if_false] at h
    rcases resolve_cases E (q :: qs) v with ⟨l, hr⟩ | ⟨e, hr⟩ | ⟨hr, _⟩
    · rw [hr] at h
      have ha := (resolve_iff E v _ l).1 hr
      obtain ⟨w, hw⟩ := addr_at ha
      simp only at h
      rw [modify_eq _ hw, deleteAt1_nonslice _ _ _ _ hps] at h
      obtain ⟨s, hs⟩ := key w h
      exact ⟨_, (addr_snoc p hp).2 ⟨l, w, s, rfl, .inr ha, hw, hs⟩⟩
    · rw [hr] at h; simp at h
    · rw [hr] at h; simp at h

end JV
