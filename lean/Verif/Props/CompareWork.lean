import Verif.Proofs.CompareWork
import Verif.Proofs.Size
import Verif.Proofs.Stable
import Verif.Proofs.IeeeEnv
import Verif.Props.Ieee
import Verif.Props.Compare
/-!
C91: what Equal, the comparisons of numbers and Contains cost.
-/
namespace JV
open Spec

/-- C91 for Equal as stated, with a factor `k`. False for 10000: see `C91_counterexample`. -/
def C91_statement (k : Nat) : Prop := ∀ (E : Env) (s t : Bytes) (v w : V), Ieee E → unmarshal E s = .ok v → unmarshal E t = .ok w →
  equalWork newFromString v w ≤ k * (s.length + t.length)

/-- Equal goes over the two values once: the work is in proportion to what they hold. The factor is five if no number has an exponent, and grows
with the largest exponent written. -/
theorem C91_equal_partial (X : Nat) (v w : V) (hkv : Her KeysNodup v) (hv : Her (NumExpUpTo X) v) (hkw : Her KeysNodup w) (hw : Her (NumExpUpTo X) w) :
    equalWork newFromString v w ≤ (X + 5) * (weight v + weight w) := by
  have hx : ∀ {v}, Her (NumExpUpTo X) v → Her (CheapNode fun s => s ≠ [] ∧ ExpUpTo X s) v := fun h l c hc => by
    have := h l c hc
    cases c <;> exact this
  exact equalWork_le (cheap_upTo X) v w hkv (hx hv) hkw (hx hw)

theorem expUpTo_short {t : Bytes} (h : ShortExp t) : ExpUpTo 99999 t := fun body e sg d h1 h2 h3 h4 =>
  Nat.le_of_lt_succ (h body e sg d h1 h2 h3 h4)

example : NumExpUpTo 0 (.num (asc "-15.25") (numOf sampleEnv (asc "-15.25"))) := by
  refine ⟨by decide +kernel, fun body e sg d h he _ _ => absurd (show e ∈ asc "-15.25" by rw [h]; simp) ?_⟩
  rcases he with rfl | rfl <;> decide +kernel

/-- ... of the two texts, if the values come from Unmarshal. -/
theorem C91_texts_partial (E : Env) (X : Nat) (s t : Bytes) (v w : V) (hs : unmarshal E s = .ok v) (ht : unmarshal E t = .ok w)
    (hv : Her (NumExpUpTo X) v) (hw : Her (NumExpUpTo X) w) : equalWork newFromString v w ≤ (X + 5) * (s.length + t.length) :=
  Nat.le_trans (C91_equal_partial X v w (her_unmarshal_keys hs) hv (her_unmarshal_keys ht) hw)
    (Nat.mul_le_mul_left _ (Nat.add_le_add (unmarshal_weight hs) (unmarshal_weight ht)))

theorem her_unmarshal_text {E : Env} {s : Bytes} {v : V} (h : unmarshal E s = .ok v) : Her (CheapNode fun s => s ≠ []) v := by
  intro l c hc
  have := her_unmarshal_readNum h l c hc
  cases c with
  | num t n =>
    have h1 := (unmarshal_num_text (this t n rfl)).1
    obtain ⟨⟨c, u, rfl, -⟩, -⟩ := h1
    exact List.cons_ne_nil _ _
  | _ => trivial

/-- Whatever the exponents, the factor is not above 2^31 + 5: larger ones count as 0 (C51). -/
theorem C91_any (E : Env) : ∀ (s t : Bytes) (v w : V), unmarshal E s = .ok v → unmarshal E t = .ok w →
    equalWork newFromString v w ≤ (2 ^ 31 + 5) * (s.length + t.length) := fun s t v w hs ht =>
  Nat.le_trans (equalWork_le cheap_all v w (her_unmarshal_keys hs) (her_unmarshal_text hs) (her_unmarshal_keys ht) (her_unmarshal_text ht))
    (Nat.mul_le_mul_left _ (Nat.add_le_add (unmarshal_weight hs) (unmarshal_weight ht)))

/-- GreaterThan and the like cost the same. -/
theorem C91_numbers (X : Nat) (s t : Bytes) (n m : Num) (hs : s ≠ []) (ht : t ≠ []) (hs' : ExpUpTo X s) (ht' : ExpUpTo X t) :
    greaterThanWork newFromString (.num s n) (.num t m) ≤ (X + 5) * (s.length + t.length) ∧
    greaterOrEqualWork newFromString (.num s n) (.num t m) ≤ (X + 5) * (s.length + t.length) := by
  have hc := cheap_upTo X
  have h1 := numberWork_le hc ⟨hs, hs'⟩ ⟨ht, ht'⟩
  refine ⟨?_, h1⟩
  have h2 := List.length_pos_iff.2 hs
  have h3 := List.length_pos_iff.2 ht
  have h4 : X * 2 ≤ X * (s.length + t.length) := Nat.mul_le_mul_left X (by omega)
  have h5 := dec_work_le (decOf newFromString s) (decOf newFromString t)
  have h6 := hc.digits s ⟨hs, hs'⟩
  have h7 := hc.digits t ⟨ht, ht'⟩
  have h8 := hc.exps s t ⟨hs, hs'⟩ ⟨ht, ht'⟩
  simp only [greaterThanWork]
  rw [Nat.add_mul]
  omega

/-- Exactly how many digits are compared: those of the two numbers without their exponents, and as many more as the exponents differ. -/
theorem C91_digits (a b : Dec) (ha : a.m ≠ 0) (hb : b.m ≠ 0) :
    a.work b = (natDigits a.m.natAbs).length + (natDigits b.m.natAbs).length + (a.e - b.e).natAbs := dec_work_eq a b ha hb

theorem one_int (E : Env) : ∃ n, unmarshal E (asc "1") = .ok (.num (asc "1") n) := by
  obtain ⟨n, h, -⟩ := unmarshal_int E (t := asc "1") (neg := false) (ip := asc "1") ⟨.inr ⟨0x31, [], by decide +kernel, by decide, by decide, by simp [Digits]⟩, by decide +kernel⟩
    (by decide +kernel) (by decide +kernel)
  exact ⟨n, h⟩

theorem one_zeros : ZerosOK (asc "1") := by
  refine zerosOK_of_lt (digits_of (by decide +kernel)) (by decide +kernel) ?_
  intro c u h
  exact absurd (congrArg List.length h) (by rw [show (asc "1").length = 1 from by decide +kernel]; simp)

theorem one_dec : decOf newFromString (asc "1") = ⟨1, 0⟩ := by decide +kernel

/-- the work of comparing `1e-x` with `1` -/
theorem exp_work {t : Bytes} {x : Nat} (hd : decOf newFromString t = ⟨1, -(x : Int)⟩) (ht : t ≠ asc "1") (n m : Num) :
    x + 2 ≤ equalWork newFromString (.num t n) (.num (asc "1") m) ∧ x + 2 ≤ greaterThanWork newFromString (.num t n) (.num (asc "1") m) := by
  have h0 : (natDigits 1).length = 1 := by decide +kernel
  have h1 : (decOf newFromString t).work (decOf newFromString (asc "1")) = x + 2 := by
    rw [one_dec, hd, dec_work_eq _ _ (by simp) (by simp)]
    show (natDigits 1).length + (natDigits 1).length + (-(x : Int) - 0).natAbs = x + 2
    rw [h0]; omega
  simp only [equalWork, numberWork', greaterThanWork]
  rw [if_neg ht, h1]
  omega

/-- `1e-99999` and `1`, nine bytes together: Unmarshal takes both, and Equal compares two integers one of which has 100000 digits. -/
theorem C91_counterexample : ¬ C91_statement 10000 := by
  intro h
  have hE := ieeeEnv_ok sampleEnv
  generalize hte : asc "1e-99999" = t at *
  have hs : ShortExp t := by
    have := shortExp_of (pre := asc "1") (e := 0x65) (sg := [0x2D]) (d := asc "99999") (by decide +kernel) (by simp) (digits_of (by decide +kernel)) (by decide +kernel)
    have e : asc "1" ++ (0x65 : UInt8) :: [0x2D] ++ asc "99999" = t := by rw [← hte]; decide +kernel
    rwa [e] at this
  have hj : JFloat false (asc "1") t := ⟨[], asc "e-99999", .inr ⟨0x31, [], by decide +kernel, by decide, by decide, by simp [Digits]⟩,
    .inl rfl, .inr ⟨0x65, [0x2D], asc "99999", by decide +kernel, by simp, by simp, by decide +kernel, digits_of (by decide +kernel)⟩, by decide +kernel, by rw [← hte]; decide +kernel⟩
  have hq : TextValue t ((10 : Rat) ^ (-99999 : Int)) := by
    have := TextValue.mk false (asc "1") [] [] (asc "e-99999") (-99999) (digits_of (by decide +kernel)) (digits_of rfl)
      (.inl ⟨rfl, rfl⟩) (by decide +kernel) (.inr ⟨0x65, [0x2D], asc "99999", by decide +kernel, by simp, digits_of (by decide +kernel), by decide +kernel, .inr ⟨rfl, by decide +kernel⟩⟩)
    have e : (if false = true then (-1 : Rat) else 1) * ((decVal (asc "1") : Rat) + (decVal ([] : Bytes) : Rat) / (10 : Rat) ^ ([] : Bytes).length) = 1 := by decide +kernel
    rw [e, Rat.one_mul] at this
    have e' : sign false ++ asc "1" ++ [] ++ asc "e-99999" = t := by rw [← hte]; decide +kernel
    rwa [e'] at this
  have hsmall : ((10 : Rat) ^ (-99999 : Int)).abs < ((2 ^ 1024 - 2 ^ 970 : Nat) : Rat) := by
    have h1 := ten_mono (show (-99999 : Int) ≤ 0 by decide)
    have h2 := ten_pos (-99999)
    have h3 : (1 : Rat) < ((2 ^ 1024 - 2 ^ 970 : Nat) : Rat) := by decide +kernel
    generalize (10 : Rat) ^ (-99999 : Int) = q at *
    rw [Rat.abs_of_nonneg (Rat.le_of_lt h2)]
    have h4 : (10 : Rat) ^ (0 : Int) = 1 := by decide +kernel
    rw [h4] at h1
    grind
  have hp := lit_parsed hE hj one_zeros hs hq hsmall
  obtain ⟨m, hm⟩ := one_int (ieeeEnv sampleEnv)
  have hu : unmarshal (ieeeEnv sampleEnv) t = .ok (.num t (numOf (ieeeEnv sampleEnv) t)) := (goUnmarshal_ok.1 hp).2
  have h1 := h _ t (asc "1") _ _ hE hu hm
  have ⟨h2, _⟩ := exp_work (t := t) (x := 99999) (by rw [← hte]; decide +kernel) (by rw [← hte]; decide +kernel) (numOf (ieeeEnv sampleEnv) t) m
  have h3 : t.length + (asc "1").length = 9 := by rw [← hte]; decide +kernel
  rw [h3] at h1
  omega

/-- `1e-2147483647`, 13 bytes: if strconv reads it (it does, as 0), Unmarshal takes it, and to compare it with `1` makes an integer of 2147483648 digits. -/
theorem C91_huge (E : Env) (hp : E.parseFloat (asc "1e-2147483647") ≠ none) : ∃ v w, unmarshal E (asc "1e-2147483647") = .ok v ∧ unmarshal E (asc "1") = .ok w ∧
    2147483649 ≤ equalWork newFromString v w ∧ 2147483649 ≤ greaterThanWork newFromString v w := by
  obtain ⟨m, hm⟩ := one_int E
  generalize hte : asc "1e-2147483647" = t at *
  have hj : JFloat false (asc "1") t := ⟨[], asc "e-2147483647", .inr ⟨0x31, [], by decide +kernel, by decide, by decide, by simp [Digits]⟩,
    .inl rfl, .inr ⟨0x65, [0x2D], asc "2147483647", by decide +kernel, by simp, by simp, by decide +kernel, digits_of (by decide +kernel)⟩, by decide +kernel, by rw [← hte]; decide +kernel⟩
  obtain ⟨x, hx⟩ : ∃ x : Nat, x = 2147483647 := ⟨_, rfl⟩
  have hd : decOf newFromString t = ⟨1, -(x : Int)⟩ := by rw [← hte, hx]; decide +kernel
  obtain ⟨h2, h3⟩ := exp_work (t := t) (x := x) hd (by rw [← hte]; decide +kernel) (numOf E t) m
  exact ⟨_, _, unmarshal_numTok ((jfloat_tok_iff hj).2 ⟨one_zeros, hp⟩), hm, by omega, by omega⟩

-- no exponents: at most five for each byte
example (n m : Num) : equalWork newFromString (.num (asc "1.50") n) (.num (asc "1.5") m) = 14 := by
  simp only [equalWork, numberWork', if_neg (show asc "1.50" ≠ asc "1.5" by decide +kernel)]
  decide +kernel

/-! ### Contains -/

theorem equalWorkL_ge {D : DecFn} : ∀ {xs ys : List V}, (∀ x ∈ xs, ∀ y, equal D x y = true → weight x ≤ 4 * equalWork D x y) → equalL D xs ys = true → weightL xs ≤ 4 * equalWorkL D xs ys
  | [], ys, _, _ => by simp [weightL]
  | x :: xs, [], _, h => by simp [equalL] at h
  | x :: xs, y :: ys, hx, h => by
    simp only [equalL] at h
    cases he : equal D x y with
    | false => rw [he] at h; cases h
    | true =>
      rw [he] at h
      have h1 := hx x (by simp) y he
      have h2 := equalWorkL_ge (fun z hz => hx z (by simp [hz])) (show equalL D xs ys = true from h)
      simp only [weightL, equalWorkL, he, if_true]
      omega

theorem equalWorkM_ge {D : DecFn} {r : List Ent} : ∀ {es : List Ent}, (∀ e ∈ es, ∀ y, equal D e.v y = true → weight e.v ≤ 4 * equalWork D e.v y) → equalM D es r = true →
    weightM es ≤ 4 * equalWorkM D es r
  | [], _, _ => by simp [weightM]
  | ⟨k, i, c⟩ :: es, hx, h => by
    have hc := hx ⟨k, i, c⟩ (by simp)
    simp only [Ent.v_mk] at hc
    simp only [equalM] at h
    cases hl : lookup k r with
    | none => rw [hl] at h; cases h
    | some e =>
      rw [hl] at h
      simp only at h
      cases he : equal D c e.v with
      | false => rw [he] at h; cases h
      | true =>
        rw [he] at h
        have h1 := hc e.v he
        have h2 := equalWorkM_ge (fun z hz => hx z (by simp [hz])) (show equalM D es r = true from h)
        simp only [weightM, equalWorkM, hl, he, if_true, Nat.mul_add]
        omega

/-- two values can only be found equal by looking at all of them -/
theorem equalWork_ge {D : DecFn} (v : V) : ∀ w, equal D v w = true → weight v ≤ 4 * equalWork D v w := by
  induction v using kid_ind with
  | step v ih =>
    intro w h
    cases v with
    | nilp => simp [equal] at h
    | notExist => simp [equal] at h
    | null => simp [weight, equalWork]
    | bool b => simp [weight, equalWork]
    | str s =>
      cases w <;> simp [equal] at h
      subst h
      simp only [weight, equalWork, sameWork, if_true]
      omega
    | num s n =>
      cases w <;> simp [equal] at h
      simp only [weight, equalWork, numberWork', sameWork]
      split
      · omega
      · split
        · rename_i h1 h2; exact absurd (by rw [h2]) h1
        · omega
    | arr xs =>
      cases w <;> simp [equal] at h
      rename_i ys
      have := equalWorkL_ge (fun x hx => ih x hx) h.2
      simp only [weight, equalWork, h.1, ne_eq, not_true, if_false]
      omega
    | obj n kvs low =>
      cases w <;> simp [equal] at h
      rename_i m kvs' low'
      have := equalWorkM_ge (fun e he => ih e.v ⟨e, he, rfl⟩) h.2
      simp only [weight, equalWork, h.1, ne_eq, not_true, if_false]
      omega

theorem subsetWork_ge {E : Env} {D : DecFn} {n : BitVec 32} {kvs : List Ent} {low : Low} : ∀ {es : List Ent},
    (∀ e ∈ es, lookup e.key kvs = some e ∧ contains E D e.v e.v = .ok true ∧ weight e.v ≤ 4 * containsWork E D e.v e.v) →
    weightM es ≤ 4 * objectSubsetWork E D (.obj n kvs low) es
  | [], _ => by simp [weightM]
  | ⟨k, i, c⟩ :: es, h => by
    obtain ⟨h1, h2, h3⟩ := h ⟨k, i, c⟩ (by simp)
    have h4 := subsetWork_ge (n := n) (low := low) (es := es) fun e he => h e (by simp [he])
    simp only [Ent.v_mk, Ent.key] at h1 h2 h3
    simp only [weightM, objectSubsetWork, get_key, h1, Ent.v_mk, h2, Nat.mul_add]
    omega

/-- the same for a value that is found to contain itself -/
theorem containsWork_ge {E : Env} {D : DecFn} (v : V) : Her KeysNodup v → Her Solid v → weight v ≤ 4 * containsWork E D v v := by
  induction v using kid_ind with
  | step v ih =>
    intro hk hs
    have hkid : ∀ c, Kid v c → contains E D c c = .ok true ∧ weight c ≤ 4 * containsWork E D c c := fun c hc => by
      have h1 := her_kid hk hk hc
      have h2 := her_kid hk hs hc
      refine ⟨(contains_iff E D c c h1 h1 fun l c hc => (h2 l c hc).1).2.2 (within_refl h2), ih c hc h1 h2⟩
    have hself : equal D v v = true := (equal_iff D v v hk hk).2 (equalTo_refl hs)
    have hge := equalWork_ge v v hself
    cases v with
    | nilp => exact absurd rfl (her_self hs).1
    | notExist => exact absurd rfl (her_self hs).2
    | null => simp only [containsWork]; omega
    | bool b => simp only [containsWork]; omega
    | str s => simp only [containsWork]; omega
    | num s n => simp only [containsWork]; omega
    | arr xs =>
      simp only [containsWork, subsetWork]
      split
      · rename_i h0
        rw [List.length_eq_zero_iff.1 h0]
        simp [weight, weightL]
      · rw [if_pos trivial]; omega
    | obj n kvs low =>
      have := subsetWork_ge (E := E) (D := D) (n := n) (low := low) (kvs := kvs) (es := kvs) fun e he => ⟨lookup_mem_nodup (her_self hk) he, hkid e.v ⟨e, he, rfl⟩⟩
      simp only [weight, containsWork]
      omega

/-- And it takes no less than a step for every four bytes: two values are found to be equal only by looking at all of them, and so it is when a
value is found to contain itself. -/
theorem C91_looks_at_all (E : Env) (D : DecFn) (v : V) :
    (∀ w, equal D v w = true → weight v ≤ 4 * equalWork D v w) ∧ (Her KeysNodup v → Her Solid v → weight v ≤ 4 * containsWork E D v v) :=
  ⟨equalWork_ge v, containsWork_ge v⟩

example : equal newFromString (.obj 1 [⟨asc "k", 1, .arr [.num (asc "1") default, .str (asc "x")]⟩] none) (.obj 5 [⟨asc "k", 3, .arr [.num (asc "1") default, .str (asc "x")]⟩] none) = true ∧
    equalWork newFromString (.obj 1 [⟨asc "k", 1, .arr [.num (asc "1") default, .str (asc "x")]⟩] none) (.obj 5 [⟨asc "k", 3, .arr [.num (asc "1") default, .str (asc "x")]⟩] none) = 8 := by
  decide +kernel

/-- Contains looks for an array in an array at every place where it may start: the work is in proportion to the product of the two sizes. -/
theorem C91_contains (E : Env) (X : Nat) (v sub : V) (hkv : Her KeysNodup v) (hv : Her (NumExpUpTo X) v) (hks : Her KeysNodup sub) (hs : Her (NumExpUpTo X) sub) :
    containsWork E newFromString sub v ≤ 3 * (X + 5) * (weight v * weight sub) := by
  have hx : ∀ {v}, Her (NumExpUpTo X) v → Her (CheapNode fun s => s ≠ [] ∧ ExpUpTo X s) v := fun h l c hc => by
    have := h l c hc
    cases c <;> exact this
  exact containsWork_le (cheap_upTo X) sub v hks (hx hs) hkv (hx hv)

theorem weightL_nulls (n : Nat) : weightL (List.replicate n .null) = 4 * n := by
  induction n with
  | zero => rfl
  | succ n ih => rw [List.replicate_succ, weightL, ih, weight]; omega

theorem weightL_append (xs ys : List V) : weightL (xs ++ ys) = weightL xs + weightL ys := by
  induction xs with
  | nil => simp [weightL]
  | cons x xs ih => simp only [List.cons_append, weightL, ih]; omega

/-- No linear bound holds: 2n nulls, searched for n nulls and a true, weigh 12n + 8 and take more than n*n steps. -/
theorem C91_contains_quadratic (E : Env) (D : DecFn) (n : Nat) :
    let v := V.arr (List.replicate (2 * n) .null)
    let sub := V.arr (List.replicate n .null ++ [.bool true])
    weight v + weight sub = 12 * n + 8 ∧ n * n ≤ containsWork E D sub v := by
  intro v sub
  refine ⟨by simp only [v, sub, weight, weightL_append, weightL_nulls, weightL]; omega, ?_⟩
  by_cases h1 : n ≤ 1
  · have : 1 ≤ containsWork E D sub v := by simp only [sub, containsWork]; omega
    have : n * n ≤ 1 := by rcases Nat.le_one_iff_eq_zero_or_eq_one.1 h1 with rfl | rfl <;> decide
    omega
  have hrun : ∀ (m s : Nat), s + m ≤ 2 * n → m ≤ runWork D (List.replicate (2 * n) .null) s (List.replicate m .null ++ [.bool true]) ∧
      (s + m < 2 * n → runFrom D (List.replicate (2 * n) .null) s (List.replicate m .null ++ [.bool true]) = false) := by
    intro m
    induction m with
    | zero =>
      intro s hs
      refine ⟨Nat.zero_le _, fun h => ?_⟩
      simp [runFrom, show s < 2 * n by omega, equal]
    | succ m ih =>
      intro s hs
      obtain ⟨h2, h3⟩ := ih (s + 1) (by omega)
      have hlt : s < 2 * n := by omega
      rw [List.replicate_succ, List.cons_append]
      unfold runWork runFrom
      simp only [List.getElem?_replicate, hlt, if_true, Option.getD_some, equal]
      exact ⟨by omega, fun h => h3 (by omega)⟩
  have hst : ∀ (k a : Nat), a + k ≤ n → k * n ≤ startsWork D (List.replicate (2 * n) .null) (List.replicate n .null ++ [.bool true]) (List.range' a k) := by
    intro k
    induction k with
    | zero => intro a _; simp
    | succ k ih =>
      intro a ha
      obtain ⟨h2, h3⟩ := hrun n a (by omega)
      have h4 := ih (a + 1) (by omega)
      rw [List.range'_succ]
      unfold startsWork
      rw [h3 (by omega), Nat.add_mul]
      simp only [Bool.false_eq_true, if_false]
      omega
  have h5 := hst n 0 (by omega)
  simp only [sub, v, containsWork, subsetWork, List.length_append, List.length_replicate, List.length_singleton]
  rw [if_neg (by omega), if_neg (by omega), if_neg (by omega), List.range_eq_range', show 2 * n - (n + 1) + 1 = n by omega]
  omega

theorem quad_arith (k : Nat) : k * (12 * (20 * (k + 1)) + 8) < 20 * (k + 1) * (20 * (k + 1)) := by
  have h3 : 12 * (20 * (k + 1)) + 8 ≤ 20 * (20 * (k + 1)) := by omega
  have h4 := Nat.mul_le_mul_left k h3
  have h5 : 20 * (k + 1) * (20 * (k + 1)) = (k + 1) * (20 * (20 * (k + 1))) := by
    rw [Nat.mul_comm 20 (k + 1), Nat.mul_assoc, Nat.mul_comm (k + 1) 20]
  rw [h5]
  exact Nat.lt_of_le_of_lt h4 (Nat.mul_lt_mul_of_pos_right (Nat.lt_succ_self k) (by omega))

/-- So there is no factor at all. -/
theorem C91_contains_counterexample (E : Env) (D : DecFn) (k : Nat) : ∃ v sub : V, k * (weight v + weight sub) < containsWork E D sub v := by
  obtain ⟨h1, h2⟩ := C91_contains_quadratic E D (20 * (k + 1))
  refine ⟨_, _, Nat.lt_of_lt_of_le ?_ h2⟩
  rw [h1]
  exact quad_arith k

example : containsWork sampleEnv newFromString (.arr [.bool true]) (.arr [.null, .bool true, .null]) = 7 := by decide +kernel

end JV
