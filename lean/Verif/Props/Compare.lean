import Verif.Proofs.Decimal
import Verif.Proofs.RoundTrip
import Verif.Props.Marshal
import Verif.Props.Order
/-!
C09, C32, C33, C34, C51: comparing values.

`D : DecFn` is `decimal.NewFromString`; unless it is named, the theorem holds whatever that function does.
-/
namespace JV
open Spec

/-! ## C32 Equal -/

/-- Equal decides "same content": type, strings, booleans, numbers up to spelling, array elements in order, object members by key — nothing else,
in particular neither the order nor the history of members. -/
theorem C32_equal_iff (D : DecFn) (v w : V) (hv : Her KeysNodup v) (hw : Her KeysNodup w) : equal D v w = true ↔ EqualTo (valOf D) v w :=
  equal_iff D v w hv hw

theorem C32_symmetric (D : DecFn) (v w : V) (hv : Her KeysNodup v) (hw : Her KeysNodup w) : equal D v w = equal D w v := by
  rw [Bool.eq_iff_iff, equal_iff D v w hv hw, equal_iff D w v hw hv]
  exact ⟨equalTo_symm, equalTo_symm⟩

theorem C32_transitive (D : DecFn) (u v w : V) (hu : Her KeysNodup u) (hv : Her KeysNodup v) (hw : Her KeysNodup w)
    (h1 : equal D u v = true) (h2 : equal D v w = true) : equal D u w = true :=
  (equal_iff D u w hu hw).2 (equalTo_trans ((equal_iff D u v hu hv).1 h1) ((equal_iff D v w hv hw).1 h2))

/-- A value is Equal to itself exactly if no part of it is nil or NotExist. -/
theorem C32_reflexive (D : DecFn) (v : V) (hv : Her KeysNodup v) : equal D v v = true ↔ Her Solid v := by
  rw [equal_iff D v v hv hv]
  exact ⟨equalTo_solid, equalTo_refl⟩

/-- All values built by public calls qualify; and every value is Equal to itself if scalars NotExist and nil are never set, inserted or appended. -/
theorem C32_built (E : Env) (D : DecFn) (v : V) : (∀ L, Built E L v → Her KeysNodup v) ∧ (Built E Solid v → equal D v v = true) := by
  have hk : ∀ L, Built E L v → Her KeysNodup v := fun L hb l c hc => by
    have := built_good hb l c hc
    cases c with
    | obj n kvs low => exact this.1
    | _ => trivial
  exact ⟨hk, fun hb => (C32_reflexive D v (hk _ hb)).2 fun l c hc => (built_solid hb l c hc).2⟩

/-- Reordering the maps, the recorded order and the caches have no influence. -/
theorem C32_same (D : DecFn) (v w : V) (hv : Her KeysNodup v) (hw : Her KeysNodup w) (hs : Her Solid v) (h : Same v w) : equal D v w = true :=
  (equal_iff D v w hv hw).2 (same_equalTo h hs)

-- the same object in another order and with another spelling of a number
example : equal newFromString (.obj 2 [⟨asc "a", 0, .num (asc "100") default⟩, ⟨asc "b", 1, .arr [.null]⟩] none)
    (.obj 9 [⟨asc "b", 3, .arr [.null]⟩, ⟨asc "a", 8, .num (asc "1.0E+2") default⟩] none) = true := by decide +kernel
example : equal newFromString (.arr [.str (asc "x"), .bool true]) (.arr [.bool true, .str (asc "x")]) = false := by decide +kernel
example : equal newFromString (.obj 1 [⟨asc "a", 0, .null⟩] none) (.obj 1 [⟨asc "b", 0, .null⟩] none) = false := by decide +kernel
example : equal newFromString (.arr [.notExist]) (.arr [.notExist]) = false := by decide +kernel

/-! ## C33 ordering of numbers -/

/-- The four comparisons of two numbers are the comparisons of the rational numbers their texts count as. -/
theorem C33_comparisons (D : DecFn) (s t : Bytes) (n m : Num) :
    greaterThan D (.num s n) (.num t m) = .ok (decide (valOf D t < valOf D s)) ∧
    greaterThanOrEqual D (.num s n) (.num t m) = .ok (decide (valOf D t ≤ valOf D s)) ∧
    lessThan D (.num s n) (.num t m) = .ok (decide (valOf D s < valOf D t)) ∧
    lessThanOrEqual D (.num s n) (.num t m) = .ok (decide (valOf D s ≤ valOf D t)) := by
  have hgt : (decOf D s).gt (decOf D t) = decide (valOf D t < valOf D s) := by
    rw [Bool.eq_iff_iff, decide_eq_true_iff]; exact dec_gt _ _
  have hge : (decOf D s).ge (decOf D t) = decide (valOf D t ≤ valOf D s) := by
    rw [Bool.eq_iff_iff, decide_eq_true_iff]; exact dec_ge _ _
  have h2 : greaterOrEqualThan' D (.num s n) (.num t m) = .ok (decide (valOf D t ≤ valOf D s), true) := by
    simp only [greaterOrEqualThan']
    split
    · rename_i h; subst h; simp [Rat.le_refl]
    · rw [hge]
  refine ⟨?_, ?_, ?_, ?_⟩
  · simp only [greaterThan, greaterThan', hgt]; rfl
  · simp only [greaterThanOrEqual, h2]; rfl
  · have : (!decide (valOf D t ≤ valOf D s)) = decide (valOf D s < valOf D t) := by
      rw [Bool.eq_iff_iff]; simp [Rat.not_le]
    simp only [lessThan, h2]
    simp [this]
  · have : (!decide (valOf D t < valOf D s)) = decide (valOf D s ≤ valOf D t) := by
      rw [Bool.eq_iff_iff]; simp [Rat.not_lt]
    simp only [lessThanOrEqual, greaterThan', hgt]
    simp [this]

/-- exactly one of LessThan, Equal and GreaterThan -/
theorem C33_trichotomy (D : DecFn) (v w : V) (hv : IsNum v) (hw : IsNum w) :
    (lessThan D v w = .ok true ∧ equal D v w = false ∧ greaterThan D v w = .ok false) ∨
    (lessThan D v w = .ok false ∧ equal D v w = true ∧ greaterThan D v w = .ok false) ∨
    (lessThan D v w = .ok false ∧ equal D v w = false ∧ greaterThan D v w = .ok true) := by
  cases v <;> try exact hv.elim
  cases w <;> try exact hw.elim
  rename_i s n t m
  obtain ⟨h1, -, h3, -⟩ := C33_comparisons D s t n m
  rw [h1, h3]
  have he : equal D (.num s n) (.num t m) = decide (valOf D s = valOf D t) := by
    rw [Bool.eq_iff_iff, decide_eq_true_iff]; exact numberEqual_iff D s t
  rw [he]
  generalize valOf D s = x
  generalize valOf D t = y
  rcases (by grind : x < y ∨ x = y ∨ y < x) with h | h | h
  · left; simp [h, Rat.ne_of_lt h, Rat.not_lt.2 (Rat.le_of_lt h)]
  · right; left; subst h; simp [Rat.lt_irrefl]
  · right; right; simp [h, (Rat.ne_of_lt h).symm, Rat.not_lt.2 (Rat.le_of_lt h)]

/-- GreaterThanOrEqual and LessThanOrEqual are the negations of LessThan and GreaterThan, and the disjunction with Equal; each comparison
is the converse of its opposite. -/
theorem C33_negations (D : DecFn) (v w : V) (hv : IsNum v) (hw : IsNum w) :
    ∃ lt gt, lessThan D v w = .ok lt ∧ greaterThan D v w = .ok gt ∧ greaterThanOrEqual D v w = .ok (!lt) ∧ lessThanOrEqual D v w = .ok (!gt) ∧
      (!lt) = (gt || equal D v w) ∧ (!gt) = (lt || equal D v w) ∧ lessThan D w v = .ok gt ∧ greaterThan D w v = .ok lt := by
  cases v <;> try exact hv.elim
  cases w <;> try exact hw.elim
  rename_i s n t m
  obtain ⟨h1, h2, h3, h4⟩ := C33_comparisons D s t n m
  obtain ⟨h1', h2', h3', h4'⟩ := C33_comparisons D t s m n
  have he : equal D (.num s n) (.num t m) = decide (valOf D s = valOf D t) := by
    rw [Bool.eq_iff_iff, decide_eq_true_iff]; exact numberEqual_iff D s t
  refine ⟨_, _, h3, h1, ?_, ?_, ?_, ?_, h3', h1'⟩
  · rw [h2]; simp [← Rat.not_lt]
  · rw [h4]; simp [← Rat.not_lt]
  all_goals
    rw [he]
    generalize valOf D s = x
    generalize valOf D t = y
    rcases (by grind : x < y ∨ x = y ∨ y < x) with h | h | h
    · simp [h, Rat.ne_of_lt h, Rat.not_lt.2 (Rat.le_of_lt h)]
    · subst h; simp [Rat.lt_irrefl]
    · simp [h, (Rat.ne_of_lt h).symm, Rat.not_lt.2 (Rat.le_of_lt h)]

/-- LessThan is transitive, and Equal numbers compare alike -/
theorem C33_transitive (D : DecFn) (u v w : V) (h : lessThan D u v = .ok true) (h' : lessThan D v w = .ok true ∨ equal D v w = true) :
    lessThan D u w = .ok true := by
  have num : ∀ a b, lessThan D a b = .ok true → IsNum a ∧ IsNum b := by
    intro a b h
    cases a <;> cases b <;> first | exact ⟨trivial, trivial⟩ | cases h
  obtain ⟨hu, hv⟩ := num u v h
  cases u <;> try exact hu.elim
  cases v <;> try exact hv.elim
  rename_i s n t m
  rw [(C33_comparisons D s t n m).2.2.1, R.ok.injEq, decide_eq_true_iff] at h
  rcases h' with h' | h'
  · obtain ⟨-, hw⟩ := num _ _ h'
    cases w <;> try exact hw.elim
    rename_i r k
    rw [(C33_comparisons D t r m k).2.2.1, R.ok.injEq, decide_eq_true_iff] at h'
    rw [(C33_comparisons D s r n k).2.2.1, decide_eq_true (show valOf D s < valOf D r by grind)]
  · cases w with
    | num r k =>
      have h' := (numberEqual_iff D t r).1 h'
      rw [(C33_comparisons D s r n k).2.2.1, decide_eq_true (h' ▸ h)]
    | _ => cases h'

/-- A comparison with something that is not a number is false, in either place (the first place must not be nil). -/
theorem C33_not_number (D : DecFn) (v w : V) (hv : v ≠ .nilp) (hn : ¬ (IsNum v ∧ IsNum w)) (hw : IsNum v → w ≠ .nilp) :
    greaterThan D v w = .ok false ∧ greaterThanOrEqual D v w = .ok false ∧ lessThan D v w = .ok false ∧ lessThanOrEqual D v w = .ok false := by
  cases v <;> cases w <;> first | exact ⟨rfl, rfl, rfl, rfl⟩ | exact absurd rfl hv | exact absurd rfl (hw trivial) | exact absurd ⟨trivial, trivial⟩ hn

example : lessThan newFromString (.num (asc "-1.5e2") default) (.num (asc "-149") default) = .ok true := by decide +kernel
example : lessThan newFromString (.num (asc "0.10") default) (.num (asc "1e-1") default) = .ok false := by decide +kernel
example : IsNum (.num (asc "1") default) := trivial

/-! ## C51 numbers are compared by value -/

/-- C51. False: see the counterexamples. -/
def C51_statement : Prop := ∀ (s t : Bytes) (n m : Num) (x y : Rat), TextValue s x → TextValue t y →
  (equal newFromString (.num s n) (.num t m) = true ↔ x = y)

/-- What exactly is compared: any two decimal number texts, with any exponents, compare as the numbers they count as (Spec/Compare
`CountsAs`: the value, or 0 if the exponent does not fit 32 bits). -/
theorem C51_exact (s t : Bytes) (n m : Num) (x y : Rat) (hs : CountsAs s x) (ht : CountsAs t y) :
    (equal newFromString (.num s n) (.num t m) = true ↔ x = y) ∧
    lessThan newFromString (.num s n) (.num t m) = .ok (decide (x < y)) ∧
    greaterThan newFromString (.num s n) (.num t m) = .ok (decide (y < x)) ∧
    lessThanOrEqual newFromString (.num s n) (.num t m) = .ok (decide (x ≤ y)) ∧
    greaterThanOrEqual newFromString (.num s n) (.num t m) = .ok (decide (y ≤ x)) := by
  obtain ⟨h1, h2, h3, h4⟩ := C33_comparisons newFromString s t n m
  have he : equal newFromString (.num s n) (.num t m) = true ↔ valOf newFromString s = valOf newFromString t := numberEqual_iff _ s t
  rw [newFromString_counts hs, newFromString_counts ht] at *
  exact ⟨he, h3, h1, h4, h2⟩

/-- every decimal number text counts as one number: its value or 0, and its value if the exponent is small -/
theorem C51_counts (t : Bytes) (q : Rat) (h : TextValue t q) :
    (CountsAs t q ∨ CountsAs t 0) ∧ (SmallExp t → CountsAs t q) ∧ ∀ x y, CountsAs t x → CountsAs t y → x = y :=
  ⟨counts_of_value h, counts_of_small h, fun _ _ hx hy => (newFromString_counts hx).symm.trans (newFromString_counts hy)⟩

-- 1e2147483648 counts as 0, 1.5 as 3/2
example : CountsAs (asc "1e2147483648") 0 :=
  .zero false (asc "1") [] [] (asc "e2147483648") 2147483648 (digits_of (by decide +kernel)) (digits_of rfl) (.inl ⟨rfl, rfl⟩) (by decide +kernel)
    (.inr ⟨0x65, [], asc "2147483648", by decide +kernel, .inl rfl, digits_of (by decide +kernel), by decide +kernel, .inl ⟨.inl rfl, by decide +kernel⟩⟩) (.inr (by decide))
example : ∃ x, CountsAs (asc "1.5") x ∧ x = 3 / 2 :=
  ⟨_, .value false (asc "1") (asc ".5") (asc "5") [] 0 (digits_of (by decide +kernel)) (digits_of (by decide +kernel)) (.inr (by decide +kernel)) (by decide +kernel) (.inl ⟨rfl, rfl⟩) (by decide +kernel) (by decide),
    by decide +kernel⟩

/-- Two numbers whose texts are decimal numbers with exponents that fit 32 bits compare exactly as the numbers that the texts denote: no rounding,
whatever the number of digits. -/
theorem C51_by_value_partial (s t : Bytes) (n m : Num) (x y : Rat) (hs : TextValue s x) (ht : TextValue t y) (hs' : SmallExp s) (ht' : SmallExp t) :
    (equal newFromString (.num s n) (.num t m) = true ↔ x = y) ∧
    lessThan newFromString (.num s n) (.num t m) = .ok (decide (x < y)) ∧
    greaterThan newFromString (.num s n) (.num t m) = .ok (decide (y < x)) ∧
    lessThanOrEqual newFromString (.num s n) (.num t m) = .ok (decide (x ≤ y)) ∧
    greaterThanOrEqual newFromString (.num s n) (.num t m) = .ok (decide (y ≤ x)) := by
  obtain ⟨h1, h2, h3, h4⟩ := C33_comparisons newFromString s t n m
  have he : equal newFromString (.num s n) (.num t m) = true ↔ valOf newFromString s = valOf newFromString t := numberEqual_iff _ s t
  rw [newFromString_val hs hs', newFromString_val ht ht'] at *
  exact ⟨he, h3, h1, h4, h2⟩

theorem jint_value {neg : Bool} {ip t : Bytes} (h : JInt neg ip t) : TextValue t (intVal neg ip : Rat) ∧ (t.length < 2 ^ 31 → SmallExp t) := by
  obtain ⟨hip, rfl⟩ := h
  obtain ⟨hd, hne⟩ := intPart_digits hip
  constructor
  · have := TextValue.mk neg ip [] [] [] 0 hd (by simp [Digits]) (.inl ⟨rfl, rfl⟩) (by simpa using hne.1) (.inl ⟨rfl, rfl⟩)
    simp only [List.append_nil] at this
    have e : (intVal neg ip : Rat) = (if neg = true then -1 else 1) * ((decVal ip : Rat) + (decVal [] : Rat) / (10 : Rat) ^ ([] : Bytes).length) * (10 : Rat) ^ (0 : Int) := by
      have e1 : (decVal [] : Rat) / (10 : Rat) ^ ([] : Bytes).length = 0 := by rw [show decVal [] = 0 from rfl]; decide +kernel
      have e2 : (10 : Rat) ^ (0 : Int) = 1 := by decide +kernel
      rw [e1, e2, Rat.add_zero, Rat.mul_one]
      cases neg with
      | false => simp only [intVal, Bool.false_eq_true, if_false, Rat.one_mul]; rfl
      | true => simp only [intVal, if_true, Rat.intCast_neg, Rat.intCast_natCast, Rat.neg_mul, Rat.one_mul]
    rw [e]; exact this
  · intro hl
    refine ⟨hl, ?_⟩
    intro body e sg d he hE _ _
    exfalso
    have hm : e ∈ sign neg ++ ip := by rw [he]; simp
    rcases List.mem_append.1 hm with hm | hm
    · cases neg <;> simp [sign] at hm; subst hm; rcases hE with h | h <;> exact absurd h (by decide)
    · have := hd e hm
      unfold Digit at this
      rcases hE with rfl | rfl <;> exact absurd this (by decide)

/-- In particular integers: two values made by NewInt64 or NewUint64 compare as the integers they were made of. -/
theorem C51_integers (E : Env) (i j : BitVec 64) (u : BitVec 64) :
    equal newFromString (newInt64 E i) (newInt64 E j) = decide (i = j) ∧
    lessThan newFromString (newInt64 E i) (newInt64 E j) = .ok (decide (i.toInt < j.toInt)) ∧
    equal newFromString (newInt64 E i) (newUint64 E u) = decide (i.toInt = u.toNat) ∧
    lessThan newFromString (newInt64 E i) (newUint64 E u) = .ok (decide (i.toInt < u.toNat)) := by
  have len : ∀ z : BitVec 64, (fmtInt z).length < 2 ^ 31 := fun z => by
    have h : ∀ k n, n < 10 ^ (k + 1) → (natDigits n).length ≤ k + 1 := by
      intro k
      induction k with
      | zero => intro n hn; unfold natDigits; rw [dif_pos (by simpa using hn)]; simp
      | succ k ih =>
        intro n hn
        unfold natDigits
        split
        · simp
        · have := ih (n / 10) (by rw [Nat.pow_succ] at hn; omega)
          simp; omega
    have hz : z.toInt.natAbs < 10 ^ (19 + 1) := by
      have h1 : -2 ^ 63 ≤ z.toInt := BitVec.le_toInt z
      have h2 : z.toInt < 2 ^ 63 := BitVec.toInt_lt
      omega
    have := h 19 _ hz
    unfold fmtInt
    split <;> simp <;> omega
  have lenu : ∀ z : BitVec 64, (fmtUint z).length < 2 ^ 31 := fun z => by
    have h : ∀ k n, n < 10 ^ (k + 1) → (natDigits n).length ≤ k + 1 := by
      intro k
      induction k with
      | zero => intro n hn; unfold natDigits; rw [dif_pos (by simpa using hn)]; simp
      | succ k ih =>
        intro n hn
        unfold natDigits
        split
        · simp
        · have := ih (n / 10) (by rw [Nat.pow_succ] at hn; omega)
          simp; omega
    have := h 19 z.toNat (by have := z.isLt; omega)
    unfold fmtUint; omega
  have vi : ∀ z : BitVec 64, TextValue (fmtInt z) (z.toInt : Rat) ∧ SmallExp (fmtInt z) := fun z => by
    obtain ⟨ip, h1, h2⟩ := fmtInt_spec z
    have := jint_value h1
    rw [h2] at this
    exact ⟨this.1, this.2 (len z)⟩
  have vu : ∀ z : BitVec 64, TextValue (fmtUint z) ((z.toNat : Int) : Rat) ∧ SmallExp (fmtUint z) := fun z => by
    obtain ⟨ip, h1, h2⟩ := fmtUint_spec z
    have := jint_value h1
    rw [h2] at this
    exact ⟨this.1, this.2 (lenu z)⟩
  obtain ⟨a1, a2, -⟩ := C51_by_value_partial (fmtInt i) (fmtInt j) { negative := decide (i.toInt < 0), floated := false, f64 := E.i64ToF64 i, i64 := i, u64 := i }
    { negative := decide (j.toInt < 0), floated := false, f64 := E.i64ToF64 j, i64 := j, u64 := j } _ _ (vi i).1 (vi j).1 (vi i).2 (vi j).2
  obtain ⟨b1, b2, -⟩ := C51_by_value_partial (fmtInt i) (fmtUint u) { negative := decide (i.toInt < 0), floated := false, f64 := E.i64ToF64 i, i64 := i, u64 := i }
    { negative := false, floated := false, f64 := E.u64ToF64 u, i64 := u, u64 := u } _ _ (vi i).1 (vu u).1 (vi i).2 (vu u).2
  refine ⟨?_, ?_, ?_, ?_⟩
  · rw [Bool.eq_iff_iff, decide_eq_true_iff]
    refine a1.trans ?_
    rw [Rat.intCast_inj, BitVec.toInt_inj]
  · refine a2.trans ?_
    simp only [Rat.intCast_lt_intCast]
  · rw [Bool.eq_iff_iff, decide_eq_true_iff]
    refine b1.trans ?_
    rw [Rat.intCast_inj]
  · refine b2.trans ?_
    simp only [Rat.intCast_lt_intCast]

/-- An exponent beyond 32 bits: the number counts as 0. -/
theorem C51_counterexample : ¬ C51_statement := by
  intro h
  have h1 : TextValue (asc "1e-3000000000") ((if false = true then -1 else 1) * ((decVal (asc "1") : Rat) + (decVal [] : Rat) / (10 : Rat) ^ ([] : Bytes).length) * (10 : Rat) ^ (-3000000000 : Int)) :=
    TextValue.mk false (asc "1") [] [] (asc "e-3000000000") (-3000000000) (digits_of (by decide +kernel)) (by simp [Digits]) (.inl ⟨rfl, rfl⟩) (by decide)
      (.inr ⟨0x65, [0x2D], asc "3000000000", by decide +kernel, .inl rfl, digits_of (by decide +kernel), by decide +kernel, .inr ⟨rfl, by decide +kernel⟩⟩)
  have h2 : TextValue (asc "0") ((if false = true then -1 else 1) * ((decVal (asc "0") : Rat) + (decVal [] : Rat) / (10 : Rat) ^ ([] : Bytes).length) * (10 : Rat) ^ (0 : Int)) :=
    TextValue.mk false (asc "0") [] [] [] 0 (digits_of (by decide +kernel)) (by simp [Digits]) (.inl ⟨rfl, rfl⟩) (by decide) (.inl ⟨rfl, rfl⟩)
  have h3 := (h _ _ default default _ _ h1 h2).1 (by decide +kernel)
  have hp := ten_pos (-3000000000)
  generalize (10 : Rat) ^ (-3000000000 : Int) = z at h3 hp
  have e1 : ((if false = true then -1 else 1) * ((decVal (asc "1") : Rat) + (decVal [] : Rat) / (10 : Rat) ^ ([] : Bytes).length)) = 1 := by decide +kernel
  have e2 : ((if false = true then -1 else 1) * ((decVal (asc "0") : Rat) + (decVal [] : Rat) / (10 : Rat) ^ ([] : Bytes).length) * (10 : Rat) ^ (0 : Int)) = 0 := by decide +kernel
  rw [e1, e2, Rat.one_mul] at h3
  rw [h3] at hp
  exact absurd hp (by decide)

/-- NaN and the infinities have no text and count as 0: they are Equal to each other and to 0. -/
theorem C51_counterexample_special (E : Env) :
    equal newFromString (newFloat64f E [] 0x7FF8000000000000#64) (newInt64 E 0) = true ∧
    equal newFromString (newFloat64f E [] 0x7FF8000000000000#64) (newFloat64f E [] 0x7FF0000000000000#64) = true ∧
    lessThan newFromString (newFloat64f E [] 0x7FF0000000000000#64) (newInt64 E 1) = .ok true := by
  have e0 : fmtInt 0 = [0x30] := by decide +kernel
  have e1 : fmtInt 1 = [0x31] := by decide +kernel
  have n1 : isValidFloat 0x7FF8000000000000#64 = false := by decide +kernel
  have n2 : isValidFloat 0x7FF0000000000000#64 = false := by decide +kernel
  simp only [newFloat64f, newInt64, n1, n2, e0, e1, equal, lessThan, greaterOrEqualThan', Bool.false_eq_true, if_false]
  decide +kernel

-- texts with more digits than any float
example : TextValue (asc "-12.5E+3") (-12500) := by
  have := TextValue.mk true (asc "12") (asc ".5") (asc "5") (asc "E+3") 3 (digits_of (by decide +kernel)) (digits_of (by decide +kernel)) (.inr rfl) (by decide +kernel)
    (.inr ⟨0x45, [0x2B], asc "3", by decide +kernel, .inr rfl, digits_of (by decide +kernel), by decide +kernel, .inl ⟨.inr rfl, by decide +kernel⟩⟩)
  have e : (if true = true then -1 else 1) * ((decVal (asc "12") : Rat) + (decVal (asc "5") : Rat) / (10 : Rat) ^ (asc "5").length) * (10 : Rat) ^ (3 : Int) = -12500 := by decide +kernel
  rw [e] at this
  exact this
example : equal newFromString (.num (asc "0.1000000000000000000000000000000000000000001") default) (.num (asc "0.1") default) = false := by decide +kernel
example : equal newFromString (.num (asc "1e3") default) (.num (asc "1000.0") default) = true := by decide +kernel

/-! ## C34 beta.Contains -/

/-- Contains(v, sub) answers whether `sub` is part of `v`: for objects every member is part of the member with the same key; for arrays a run of
equal elements; otherwise equality. It never panics if `sub` has no nil part. -/
theorem C34_contains_iff (E : Env) (D : DecFn) (v sub : V) (hv : Her KeysNodup v) (hs : Her KeysNodup sub) (hn : Her (· ≠ .nilp) sub) :
    (∃ b, containsAt E D v sub [] = .ok b) ∧ (containsAt E D v sub [] = .ok true ↔ Within (valOf D) sub v) := by
  have h := contains_iff E D sub v hs hv hn
  cases v with
  | nilp =>
    refine ⟨⟨false, rfl⟩, ⟨fun h => (by cases h), fun hw => ?_⟩⟩
    have := h.2.2 hw
    cases hw with
    | scalar _ _ _ he => cases he
  | _ => exact h

theorem C34_reflexive (E : Env) (D : DecFn) (v : V) (hv : Her KeysNodup v) (hs : Her Solid v) : containsAt E D v v [] = .ok true :=
  (C34_contains_iff E D v v hv hv fun l c hc => (hs l c hc).1).2.2 (within_refl hs)

theorem C34_transitive (E : Env) (D : DecFn) (u v w : V) (hu : Her KeysNodup u) (hv : Her KeysNodup v) (hw : Her KeysNodup w)
    (hv' : Her (· ≠ .nilp) v) (hw' : Her (· ≠ .nilp) w) (h1 : containsAt E D u v [] = .ok true) (h2 : containsAt E D v w [] = .ok true) :
    containsAt E D u w [] = .ok true :=
  (C34_contains_iff E D u w hu hw hw').2.2 (within_trans ((C34_contains_iff E D v w hv hw hw').2.1 h2) ((C34_contains_iff E D u v hu hv hv').2.1 h1))

/-- Two values that contain each other are Equal, so that Contains is a partial order of values up to Equal. -/
theorem C34_antisymmetric (E : Env) (D : DecFn) (v w : V) (hv : Her KeysNodup v) (hw : Her KeysNodup w) (hv' : Her (· ≠ .nilp) v) (hw' : Her (· ≠ .nilp) w)
    (h1 : containsAt E D v w [] = .ok true) (h2 : containsAt E D w v [] = .ok true) : equal D v w = true :=
  (equal_iff D v w hv hw).2 (within_antisymm ((C34_contains_iff E D w v hw hv hv').2.1 h2) ((C34_contains_iff E D v w hv hw hw').2.1 h1))

/-- With a path: what is at the path contains `sub`; nothing there, nothing contained. -/
theorem C34_path (E : Env) (D : DecFn) (v sub : V) (p : Param) (ps : List Param) (hv : v ≠ .nilp) :
    (∀ w, w ≠ .nilp → get E v (p :: ps) = .ok w → containsAt E D v sub (p :: ps) = containsAt E D w sub []) ∧
    (∀ e, get E v (p :: ps) = .err e → containsAt E D v sub (p :: ps) = .ok false) := by
  constructor
  · intro w hw h
    cases v <;> try exact absurd rfl hv
    all_goals (cases w <;> first | exact absurd rfl hw | (simp only [containsAt, h]))
  · intro e h
    cases v <;> first | exact absurd rfl hv | (simp only [containsAt, h])

/-- Equal values contain each other -/
theorem C34_equal (E : Env) (D : DecFn) (v w : V) (hv : Her KeysNodup v) (hw : Her KeysNodup w) (h : equal D v w = true) :
    containsAt E D v w [] = .ok true := by
  have he := equalTo_symm ((equal_iff D v w hv hw).1 h)
  refine (C34_contains_iff E D v w hv hw fun l c hc => (equalTo_solid he l c hc).1).2.2 ?_
  clear h hv hw
  induction he with
  | arr xs ys hl h _ =>
    have := Within.arr (val := valOf D) [] xs ys [] (.arr _ _ hl h)
    simpa using this
  | obj n kvs low n' kvs' low' hk _ ih =>
    have hsome : ∀ k c, members (.obj n kvs low) k = some c → members (.obj n' kvs' low') k = some ((members (.obj n' kvs' low') k).getD .notExist) := by
      intro k c hc
      have := hk k
      rw [hc] at this
      obtain ⟨c', h3⟩ := Option.isSome_iff_exists.1 this.symm
      rw [h3]; rfl
    exact .obj _ _ _ _ _ _ (fun k => (members (.obj n' kvs' low') k).getD .notExist) hsome fun k c hc => ih k c _ hc (hsome k c hc)
  | _ => exact .scalar _ _ trivial (by constructor <;> assumption)

/-- a nil member of `sub` makes Contains panic -/
theorem C34_nil_panics : containsAt sampleEnv newFromString (.obj 1 [⟨asc "a", 0, .null⟩] none) (.obj 1 [⟨asc "a", 0, .nilp⟩] none) [] = .panic := by decide +kernel

example : containsAt sampleEnv newFromString (.arr [.null, .num (asc "1") default, .str (asc "x"), .null]) (.arr [.num (asc "1.0") default, .str (asc "x")]) [] = .ok true := by decide +kernel
example : containsAt sampleEnv newFromString (.obj 1 [⟨asc "a", 0, .num (asc "1") default⟩] none) (.obj 7 [⟨asc "a", 5, .num (asc "1.0") default⟩] none) [] = .ok true ∧
    containsAt sampleEnv newFromString (.obj 7 [⟨asc "a", 5, .num (asc "1.0") default⟩] none) (.obj 1 [⟨asc "a", 0, .num (asc "1") default⟩] none) [] = .ok true := by decide +kernel
example : containsAt sampleEnv newFromString (.arr [.null, .num (asc "1") default, .null]) (.arr [.null, .null]) [] = .ok false := by decide +kernel

/-! ## C09 round trip -/

/-- C09. False: see `C09_counterexample`. -/
def C09_statement : Prop := ∀ (E : Env) (S : SortFn) (D : DecFn) (d : Opt) (v : V) (opts : List MOpt), GoodSort S → Built E (ApiScalar E) v →
  Her (fun c => match c with | .str s => ValidUTF8 s | .num src _ => JNum src | .obj _ kvs _ => ∀ e ∈ kvs, ValidUTF8 e.key | _ => True) v →
  (combineOptions d opts).omitNull = false → BlankIndent (combineOptions d opts).indent →
  ∃ b w, marshal E S d v opts = .ok (b, none) ∧ goUnmarshal E b = .ok (b, w, none) ∧ equal D v w = true

/-- Marshal succeeds, Unmarshal takes the result, and what it reads is Equal to the value — without the null members of its objects, if
OptOmitNull is on — whatever the options for escaping and key order, and with any indentation made of blanks. Strings and keys must be valid UTF-8
and each number must have a text that Unmarshal takes. -/
theorem C09_roundtrip_partial (E : Env) (S : SortFn) (D : DecFn) (d : Opt) (v : V) (opts : List MOpt) (hS : GoodSort S) (hk : Her KeysNodup v)
    (hp : Her (Portable E) v) (hi : BlankIndent (combineOptions d opts).indent) :
    ∃ b w, marshal E S d v opts = .ok (b, none) ∧ goUnmarshal E b = .ok (b, w, none) ∧
      equal D (if (combineOptions d opts).omitNull then prune v else v) w = true := by
  have hpr := portable_printable (o := combineOptions d opts) hp
  have hm : Marshalable v := ⟨hk, noNil_her fun l c hc => (portable_solid hp l c hc).1, (her_self (portable_solid hp)).2⟩
  have hb := marshal_printable (S := S) d hm (her_self hpr)
  have hwk : ∀ b w, goUnmarshal E b = .ok (b, w, none) → Her KeysNodup w := fun b w h l c hc => by
    have := her_unmarshal_good (goUnmarshal_ok.1 h).2 l c hc
    cases c with
    | obj n kvs low => exact this.1
    | _ => trivial
  cases ho : (combineOptions d opts).omitNull with
  | false =>
    obtain ⟨j, w, h1, h2, h3⟩ := C12_replaced E S d v opts _ hS hm hpr hi hb
    exact ⟨_, w, hb, h2, (equal_iff D v w hk (hwk _ w h2)).2 (shows_equal ho h1 hk hp h3)⟩
  | true =>
    obtain ⟨j, w, h1, h2, h3⟩ := C13_omit_null_partial E S d v opts _ hS hm hpr hi ho hb
    exact ⟨_, w, hb, h2, (equal_iff D _ w (keysNodup_prune hk) (hwk _ w h2)).2 (shows_equal rfl h1 (keysNodup_prune hk) (portable_prune hk hp) h3)⟩

/-- What Unmarshal returned survives: parsed values have readable numbers, so only their strings and keys have to be valid UTF-8. -/
theorem C09_parsed (E : Env) (S : SortFn) (D : DecFn) (d : Opt) (s : Bytes) (v : V) (opts : List MOpt) (hS : GoodSort S) (h : goUnmarshal E s = .ok (s, v, none))
    (hu : Her (fun c => match c with | .str s => ValidUTF8 s | .obj _ kvs _ => ∀ e ∈ kvs, ValidUTF8 e.key | _ => True) v)
    (ho : (combineOptions d opts).omitNull = false) (hi : BlankIndent (combineOptions d opts).indent) :
    ∃ b w, marshal E S d v opts = .ok (b, none) ∧ goUnmarshal E b = .ok (b, w, none) ∧ equal D v w = true := by
  have hun := (goUnmarshal_ok.1 h).2
  have hk : Her KeysNodup v := fun l c hc => by
    have := her_unmarshal_good hun l c hc
    cases c with
    | obj n kvs low => exact this.1
    | _ => trivial
  have hp : Her (Portable E) v := fun l c hc => by
    have h1 := hu l c hc
    have h2 := her_unmarshal_solid hun l c hc
    cases c with
    | nilp => exact absurd rfl h2.1
    | notExist => exact absurd rfl h2.2
    | num src n => exact unmarshal_nums hun l _ hc src n rfl
    | null => trivial
    | bool b => trivial
    | arr xs => trivial
    | str s => exact h1
    | obj n kvs low => exact h1
  obtain ⟨b, w, h1, h2, h3⟩ := C09_roundtrip_partial E S D d v opts hS hk hp hi
  rw [ho] at h3
  exact ⟨b, w, h1, h2, h3⟩

-- the hypotheses of the round trip: an array with a number and a two-byte character
example : Her (Portable sampleEnv) (.arr [.num (asc "1.50") default, .str [0xC3, 0xA9], .obj 1 [⟨asc "a", 0, .null⟩] none]) := by
  refine her_of_kids trivial fun c hc => ?_
  have : c = .num (asc "1.50") default ∨ c = .str [0xC3, 0xA9] ∨ c = .obj 1 [⟨asc "a", 0, .null⟩] none := by simpa [Kid] using hc
  rcases this with rfl | rfl | rfl
  · exact her_leaf ⟨match unmarshal sampleEnv (asc "1.50") with | .ok (.num _ n) => n | _ => default, by decide +kernel⟩ trivial
  · exact her_leaf ⟨[0xE9], by decide, by decide⟩ trivial
  · refine her_of_kids (fun e he => ?_) fun c hc => ?_
    · have : e = ⟨asc "a", 0, .null⟩ := by simpa using he
      subst this
      exact ⟨[0x61], by decide, by decide +kernel⟩
    · have : V.null = c := by simpa [Kid] using hc
      subst this
      exact her_leaf trivial trivial

/-- NewFloat64f(1e20, 'f', -1, 64) is written as an integer that the parser refuses -/
theorem C09_counterexample : ¬ C09_statement := by
  intro h
  obtain ⟨b, w, h1, h2, -⟩ := h sampleEnv insertionSort newFromString emptyOptions (newFloat64f sampleEnv (asc "100000000000000000000") 0x4415AF1D78B58C40#64) []
    insertionSort_good (.scalar _ trivial (.float _ _ fun _ => .inl ⟨false, asc "100000000000000000000", .inr ⟨0x31, asc "00000000000000000000", by decide +kernel, by decide, by decide, digits_of (by decide +kernel)⟩, by decide +kernel⟩))
    (her_leaf (.inl ⟨false, asc "100000000000000000000", .inr ⟨0x31, asc "00000000000000000000", by decide +kernel, by decide, by decide, digits_of (by decide +kernel)⟩, by decide +kernel⟩) trivial)
    (by decide) trivial
  rw [show marshal sampleEnv insertionSort emptyOptions (newFloat64f sampleEnv (asc "100000000000000000000") 0x4415AF1D78B58C40#64) [] = .ok (asc "100000000000000000000", none) by decide +kernel] at h1
  cases h1
  have h3 := (goUnmarshal_ok.1 h2).2
  rw [show unmarshal sampleEnv (asc "100000000000000000000") = .err .other by decide +kernel] at h3
  cases h3

/-! ### C45, the marshalling half -/

/-- `MarshalString` gives the text of `Marshal`, with the same error, and `MustMarshal` the text without it; there is never text with an error. -/
theorem C45_strings (E : Env) (S : SortFn) (d : Opt) (v : V) (opts : List MOpt) :
    (∃ b, marshal E S d v opts = .ok (b, none) ∧ marshalString E S d v opts = .ok (b, none) ∧ mustMarshal E S d v opts = .ok b) ∨
    (∃ e, marshal E S d v opts = .ok ([], some e) ∧ marshalString E S d v opts = .ok ([], some e) ∧ mustMarshal E S d v opts = .ok []) ∨
    ((∀ r, marshal E S d v opts ≠ .ok r) ∧ (∀ r, marshalString E S d v opts ≠ .ok r) ∧ ∀ b, mustMarshal E S d v opts ≠ .ok b) := by
  have hb : ∀ b e, marshal E S d v opts = .ok (b, some e) → b = [] := by
    intro b e h
    unfold marshal at h
    split at h
    · cases h
    · cases h; rfl
    · cases hm : marshalTo E S (combineOptions d opts) v none {} with
      | ok r =>
        obtain ⟨st, e'⟩ := r
        rw [hm] at h
        cases e' with
        | some e' => simp only [R.bind_ok, R.pure_eq] at h; cases h; rfl
        | none => simp only [R.bind_ok, R.pure_eq] at h; cases h
      | err e' => rw [hm] at h; cases h
      | panic => rw [hm] at h; cases h
      | diverge => rw [hm] at h; cases h
  unfold marshalString mustMarshal
  cases hm : marshal E S d v opts with
  | ok r =>
    obtain ⟨b, e⟩ := r
    cases e with
    | none => exact .inl ⟨b, rfl, rfl, rfl⟩
    | some e =>
      have := hb b e hm
      subst this
      exact .inr (.inl ⟨e, rfl, rfl, rfl⟩)
  | err e => exact .inr (.inr ⟨nofun, nofun, nofun⟩)
  | panic => exact .inr (.inr ⟨nofun, nofun, nofun⟩)
  | diverge => exact .inr (.inr ⟨nofun, nofun, nofun⟩)

/-- MarshalJSON and MarshalBinary write what Marshal without options writes; with the defaults set from `ds` that is what Marshal writes under factory
defaults when it is given `ds` itself. -/
theorem C45_marshal (E : Env) (S : SortFn) (ds : List MOpt) (v : V) :
    marshalJSON E S (setDefault ds) v = marshal E S (setDefault ds) v [] ∧ marshalBinary E S (setDefault ds) v = marshal E S (setDefault ds) v [] ∧
    marshalJSON E S (setDefault ds) v = marshal E S emptyOptions v ds :=
  ⟨rfl, rfl, rfl⟩

/-- What MarshalBinary writes, UnmarshalBinary reads into any value: the receiver becomes Equal to the value written. -/
theorem C45_binary (E : Env) (S : SortFn) (D : DecFn) (d : Opt) (v recv : V) (hS : GoodSort S) (hk : Her KeysNodup v) (hp : Her (Portable E) v)
    (hi : BlankIndent d.indent) (ho : d.omitNull = false) (hr : recv ≠ .nilp) :
    ∃ b w, marshalBinary E S d v = .ok (b, none) ∧ unmarshalJSON E recv b = .ok (w, none) ∧ equal D v w = true := by
  obtain ⟨b, w, h1, h2, h3⟩ := C09_roundtrip_partial E S D d v [] hS hk hp hi
  rw [show (combineOptions d []).omitNull = false from ho] at h3
  refine ⟨b, w, h1, ?_, h3⟩
  rcases C45_unmarshalJSON E recv hr b with ⟨w', h4, h5⟩ | ⟨w', e, h4, -⟩
  · rw [h2] at h4
    cases h4
    exact h5
  · rw [h2] at h4
    cases h4

example : (do let (b, _) ← marshalBinary sampleEnv insertionSort (setDefault [.omitNull true]) (.obj 2 [⟨asc "a", 0, .null⟩, ⟨asc "b", 1, .bool true⟩] none)
              unmarshalJSON sampleEnv (.str (asc "old")) b) = .ok (.obj 1 [⟨asc "b", 1, .bool true⟩] none, none) := by decide +kernel

end JV
