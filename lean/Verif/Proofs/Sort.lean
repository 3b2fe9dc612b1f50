import Verif.Spec.Marshal
/-! Sorting with an unspecified algorithm. -/
namespace JV
open Spec

theorem sortBy_map {α β : Type} (S : SortFn) (f : α → β) (less : β → β → Bool) (l : List α) :
    sortBy S less (l.map f) = (sortBy S (fun a b => less (f a) (f b)) l).map f := by
  unfold sortBy
  have h : lessAt less (l.map f) = lessAt (fun a b => less (f a) (f b)) l := by
    funext i j
    unfold lessAt
    simp only [List.getElem?_map]
    cases l[i]? <;> cases l[j]? <;> rfl
  rw [h, List.length_map, List.map_filterMap]
  congr 1
  funext i
  simp only [List.getElem?_map]

theorem sortBy_mem {α : Type} {S : SortFn} {less : α → α → Bool} {l : List α} {a : α} (h : a ∈ sortBy S less l) : a ∈ l := by
  unfold sortBy at h
  rw [List.mem_filterMap] at h
  obtain ⟨i, -, hi⟩ := h
  exact List.mem_of_getElem? hi

theorem filterMap_range {α : Type} (l : List α) : (List.range l.length).filterMap (fun i => l[i]?) = l := by
  induction l with
  | nil => rfl
  | cons a l ih =>
    rw [List.length_cons, List.range_succ_eq_map, List.filterMap_cons]
    simp only [List.getElem?_cons_zero, List.filterMap_map]
    congr 1

theorem sortBy_perm {α : Type} {S : SortFn} (hS : GoodSort S) (less : α → α → Bool) (l : List α) : (sortBy S less l).Perm l := by
  unfold sortBy
  have h := (hS.perm l.length (lessAt less l)).filterMap fun i => l[i]?
  rwa [filterMap_range] at h

/-- an order on elements as an order on positions; positions outside come last -/
def posLt {α : Type} (lt : α → α → Bool) (l : List α) (i j : Nat) : Bool :=
  match l[i]?, l[j]? with
  | some a, some b => lt a b
  | some _, none => true
  | _, _ => false

theorem posLt_weak {α : Type} {lt : α → α → Bool} (h : StrictWeak lt) (l : List α) : StrictWeak (posLt lt l) where
  irrefl i := by unfold posLt; cases l[i]? <;> simp [h.irrefl]
  trans i j k := by
    unfold posLt
    cases l[i]? <;> cases l[j]? <;> cases l[k]? <;> simp
    exact h.trans _ _ _
  incomp i j k := by
    unfold posLt
    cases l[i]? <;> cases l[j]? <;> cases l[k]? <;> simp
    exact h.incomp _ _ _

/-- The result is sorted by `lt` if Less agrees with it at different positions. -/
theorem sortBy_sorted {α : Type} {S : SortFn} (hS : GoodSort S) {less lt : α → α → Bool} (hlt : StrictWeak lt) (l : List α)
    (h : ∀ (i j : Nat) a b, l[i]? = some a → l[j]? = some b → i ≠ j → less a b = lt a b) :
    (sortBy S less l).Pairwise fun a b => lt b a = false := by
  unfold sortBy
  have h1 := hS.sorted l.length (lessAt less l) (posLt lt l) (posLt_weak hlt l) (by
    intro i j hi hj hij
    have e1 : l[i]? = some l[i] := List.getElem?_eq_getElem hi
    have e2 : l[j]? = some l[j] := List.getElem?_eq_getElem hj
    simp only [posLt, lessAt, e1, e2]
    exact h i j _ _ e1 e2 hij)
  refine List.pairwise_filterMap.2 (h1.imp ?_)
  intro i j hij a ha b hb
  simp only [posLt, ha, hb] at hij
  exact hij

theorem perm_sorted_unique {α : Type} {r : α → α → Prop} : ∀ {l1 l2 : List α}, l1.Perm l2 → l1.Pairwise r → l2.Pairwise r →
    (∀ a ∈ l1, ∀ b ∈ l1, r a b → r b a → a = b) → l1 = l2
  | [], l2, hp, _, _, _ => by rw [List.nil_perm.1 hp]
  | a :: l1, l2, hp, h1, h2, ha => by
    cases l2 with
    | nil => exact absurd hp.length_eq (by simp)
    | cons b l2 =>
      have hab : a = b := by
        have m1 : b ∈ a :: l1 := hp.mem_iff.2 (by simp)
        have m2 : a ∈ b :: l2 := hp.mem_iff.1 (by simp)
        rcases List.mem_cons.1 m1 with e | m1
        · exact e.symm
        rcases List.mem_cons.1 m2 with e | m2
        · exact e
        exact ha a (by simp) b (by simp [m1]) ((List.pairwise_cons.1 h1).1 b m1) ((List.pairwise_cons.1 h2).1 a m2)
      subst hab
      rw [perm_sorted_unique (List.perm_cons a |>.1 hp) (List.pairwise_cons.1 h1).2 (List.pairwise_cons.1 h2).2
        (fun x hx y hy => ha x (by simp [hx]) y (by simp [hy]))]

/-! ### byte order of keys -/

theorem bytesLt_irrefl : ∀ a : Bytes, bytesLt a a = false
  | [] => rfl
  | x :: a => by simp [bytesLt, bytesLt_irrefl a]

theorem bytesLt_trans : ∀ a b c : Bytes, bytesLt a b = true → bytesLt b c = true → bytesLt a c = true
  | [], b, [], h1, h2 => by cases b <;> simp [bytesLt] at h1 h2
  | [], _, _ :: _, _, _ => rfl
  | _ :: _, [], _, h1, _ => by simp [bytesLt] at h1
  | _ :: _, _ :: _, [], _, h2 => by simp [bytesLt] at h2
  | x :: a, y :: b, z :: c, h1, h2 => by
    simp only [bytesLt, Bool.or_eq_true, decide_eq_true_eq, Bool.and_eq_true, beq_iff_eq] at h1 h2 ⊢
    rcases h1 with h1 | ⟨rfl, h1⟩
    · rcases h2 with h2 | ⟨rfl, h2⟩
      · exact .inl (by rw [UInt8.lt_iff_toNat_lt] at *; omega)
      · exact .inl h1
    · rcases h2 with h2 | ⟨rfl, h2⟩
      · exact .inl h2
      · exact .inr ⟨rfl, bytesLt_trans a b c h1 h2⟩

/-- any two different strings are ordered -/
theorem bytesLt_total : ∀ a b : Bytes, bytesLt a b = false → bytesLt b a = false → a = b
  | [], [], _, _ => rfl
  | [], _ :: _, h, _ => by simp [bytesLt] at h
  | _ :: _, [], _, h => by simp [bytesLt] at h
  | x :: a, y :: b, h1, h2 => by
    simp only [bytesLt, Bool.or_eq_false_iff, decide_eq_false_iff_not, Bool.and_eq_false_imp, beq_iff_eq] at h1 h2
    have hxy : x = y := by
      have e1 := h1.1; have e2 := h2.1
      rw [UInt8.lt_iff_toNat_lt] at e1 e2
      exact UInt8.toNat.inj (by omega)
    subst hxy
    rw [bytesLt_total a b (h1.2 rfl) (h2.2 rfl)]

theorem bytesLt_asymm {a b : Bytes} (h : bytesLt a b = true) : bytesLt b a = false := by
  cases hb : bytesLt b a with
  | false => rfl
  | true => have := bytesLt_trans _ _ _ h hb; rw [bytesLt_irrefl] at this; cases this

theorem bytesLe_ne {a b : Bytes} (h : a ≠ b) : bytesLe a b = bytesLt a b := by
  unfold bytesLe
  cases h1 : bytesLt b a with
  | true => rw [bytesLt_asymm h1]; rfl
  | false =>
    cases h2 : bytesLt a b with
    | true => rfl
    | false => exact absurd (bytesLt_total _ _ h2 h1) h

theorem bytesLt_incomp {a b c : Bytes} (h1 : bytesLt a b = false) (h2 : bytesLt b c = false) : bytesLt a c = false := by
  by_cases hab : a = b
  · rw [hab]; exact h2
  by_cases hbc : b = c
  · rw [← hbc]; exact h1
  have e1 : bytesLt b a = true := by
    cases h : bytesLt b a with
    | true => rfl
    | false => exact absurd (bytesLt_total _ _ h1 h) hab
  have e2 : bytesLt c b = true := by
    cases h : bytesLt c b with
    | true => rfl
    | false => exact absurd (bytesLt_total _ _ h2 h) hbc
  exact bytesLt_asymm (bytesLt_trans _ _ _ e2 e1)

theorem bytesLt_weak : StrictWeak bytesLt := ⟨bytesLt_irrefl, bytesLt_trans, fun _ _ _ => bytesLt_incomp⟩

/-- the order of sortStringSliceV on distinct keys -/
def seqLt (seq : Bytes → Option Nat) (k1 k2 : Bytes) : Bool :=
  match seq k1, seq k2 with
  | some i, some j => decide (i < j)
  | some _, none => true
  | none, some _ => false
  | none, none => bytesLt k1 k2

theorem seqLess_ne {seq : Bytes → Option Nat} {a b : Bytes} (h : a ≠ b) : seqLess seq a b = seqLt seq a b := by
  unfold seqLess seqLt
  cases seq a <;> cases seq b <;> simp [bytesLe_ne h]

theorem seqLt_weak (seq : Bytes → Option Nat) : StrictWeak (seqLt seq) where
  irrefl a := by unfold seqLt; cases seq a <;> simp [bytesLt_irrefl]
  trans a b c := by
    unfold seqLt
    cases seq a <;> cases seq b <;> cases seq c <;> simp
    · exact bytesLt_trans a b c
    · omega
  incomp a b c := by
    unfold seqLt
    cases seq a <;> cases seq b <;> cases seq c <;> simp
    · exact bytesLt_incomp
    · omega

theorem on_weak {α β : Type} {lt : β → β → Bool} (h : StrictWeak lt) (f : α → β) : StrictWeak fun a b => lt (f a) (f b) :=
  ⟨fun _ => h.irrefl _, fun _ _ _ => h.trans _ _ _, fun _ _ _ => h.incomp _ _ _⟩

/-! ### an algorithm that meets the contract -/

def insertPos (less : Nat → Nat → Bool) (x : Nat) : List Nat → List Nat
  | [] => [x]
  | y :: ys => if less y x then y :: insertPos less x ys else x :: y :: ys

/-- insertion sort, from the back -/
def insertionSort : SortFn := fun n less => (List.range n).foldr (insertPos less) []

theorem insertPos_perm (less : Nat → Nat → Bool) (x : Nat) : ∀ l, (insertPos less x l).Perm (x :: l)
  | [] => .refl _
  | y :: ys => by
    unfold insertPos
    split
    · exact ((insertPos_perm less x ys).cons y).trans (.swap _ _ _)
    · exact .refl _

theorem foldr_perm (less : Nat → Nat → Bool) : ∀ l : List Nat, (l.foldr (insertPos less) []).Perm l
  | [] => .refl _
  | x :: l => (insertPos_perm less x _).trans ((foldr_perm less l).cons x)

theorem foldr_sorted {less lt : Nat → Nat → Bool} {n : Nat} (hlt : StrictWeak lt) (h : ∀ i j, i < n → j < n → i ≠ j → less i j = lt i j) :
    ∀ l : List Nat, l.Nodup → (∀ i ∈ l, i < n) → (l.foldr (insertPos less) []).Pairwise fun i j => lt j i = false := by
  intro l
  induction l with
  | nil => intro _ _; exact .nil
  | cons x l ih =>
    intro hn hm
    have hs := ih (List.nodup_cons.1 hn).2 fun i hi => hm i (by simp [hi])
    have hmem : ∀ y ∈ l.foldr (insertPos less) [], y < n ∧ y ≠ x := by
      intro y hy
      have := (foldr_perm less l).mem_iff.1 hy
      exact ⟨hm y (by simp [this]), fun e => (List.nodup_cons.1 hn).1 (e ▸ this)⟩
    have hx := hm x (by simp)
    simp only [List.foldr_cons]
    generalize l.foldr (insertPos less) [] = s at hs hmem
    clear ih
    induction s with
    | nil => simp [insertPos]
    | cons y s ih =>
      obtain ⟨hy, hyx⟩ := hmem y (by simp)
      rw [List.pairwise_cons] at hs
      unfold insertPos
      rw [h y x hy hx hyx]
      cases hc : lt y x with
      | true =>
        simp only [if_true]
        refine List.pairwise_cons.2 ⟨?_, ih hs.2 fun z hz => hmem z (by simp [hz])⟩
        intro z hz
        rcases List.mem_cons.1 ((insertPos_perm less x s).mem_iff.1 hz) with rfl | hz
        · cases hc2 : lt z y with
          | false => rfl
          | true => have := hlt.trans _ _ _ hc hc2; rw [hlt.irrefl] at this; cases this
        · exact hs.1 z hz
      | false =>
        simp only [Bool.false_eq_true, if_false]
        refine List.pairwise_cons.2 ⟨?_, List.pairwise_cons.2 hs⟩
        intro z hz
        rcases List.mem_cons.1 hz with rfl | hz
        · exact hc
        · exact hlt.incomp _ _ _ (hs.1 z hz) hc

theorem insertionSort_good : GoodSort insertionSort where
  perm n less := foldr_perm less _
  sorted n less lt hlt h := foldr_sorted hlt h _ List.nodup_range fun i hi => List.mem_range.1 hi

end JV
