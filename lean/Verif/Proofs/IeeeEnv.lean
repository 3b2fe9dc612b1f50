import Verif.Proofs.IeeeRead
/-!
There are functions with the properties that Spec/Ieee assumes of Go.
-/
namespace JV
open Spec

/-! ### the value of a text is determined -/

/-- the value of a text, if it has one -/
def textQ (t : Bytes) : Rat :=
  let neg := t.head? == some 0x2D
  let u := if neg then t.tail else t
  let ip := u.takeWhile isDigitB
  let r := u.dropWhile isDigitB
  let ds := if r.head? = some 0x2E then r.tail.takeWhile isDigitB else []
  let ep := if r.head? = some 0x2E then r.tail.dropWhile isDigitB else r
  let x : Int := match ep with
    | [] => 0
    | _ :: c :: d => if c = 0x2D then - (decVal d : Int) else if c = 0x2B then decVal d else decVal (c :: d)
    | _ => 0
  (if neg then -1 else 1) * ((decVal ip : Rat) + (decVal ds : Rat) / (10 : Rat) ^ ds.length) * (10 : Rat) ^ x

theorem digitsB {ds : Bytes} (h : Digits ds) : ∀ c ∈ ds, isDigitB c = true := fun c hc => digit_isDigitB.2 (h c hc)

theorem textValue_eq {t : Bytes} {q : Rat} (h : TextValue t q) : q = textQ t := by
  cases h with
  | mk neg ip fp ds ep x hip hds hfp hne hep =>
    have hepE : ∀ c u, ep = c :: u → isDigitB c = false ∧ c ≠ 0x2E := by
      intro c u he
      rcases hep with ⟨rfl, -⟩ | ⟨e, sg, d, rfl, he', -⟩
      · cases he
      · cases he
        rcases he' with rfl | rfl <;> decide
    have hstop : ep = [] ∨ ∃ c t, ep = c :: t ∧ isDigitB c = false := by
      cases ep with
      | nil => exact .inl rfl
      | cons c u => exact .inr ⟨c, u, rfl, (hepE c u rfl).1⟩
    have hr : fp ++ ep = [] ∨ ∃ c t, fp ++ ep = c :: t ∧ isDigitB c = false := by
      rcases hfp with ⟨rfl, -⟩ | rfl
      · exact hstop
      · exact .inr ⟨0x2E, ds ++ ep, rfl, by decide⟩
    have hneg : ((sign neg ++ ip ++ fp ++ ep).head? == some 0x2D) = neg := by
      rw [List.append_assoc, List.append_assoc]
      refine head_minus fun c hc => ?_
      cases ip with
      | cons y u => simp at hc; exact (digit_notMinus (hip c (by simp [hc]))).1
      | nil =>
        rcases hfp with ⟨rfl, rfl⟩ | rfl
        · exact absurd rfl hne
        · simp at hc; rw [← hc]; decide
    have hu : (if neg = true then (sign neg ++ ip ++ fp ++ ep).tail else sign neg ++ ip ++ fp ++ ep) = ip ++ (fp ++ ep) := by
      cases neg <;> simp [sign]
    obtain ⟨e1, e2⟩ := takeWhile_stop (digitsB hip) hr
    unfold textQ
    simp only [hneg, hu, e1, e2]
    have hfrac : (if (fp ++ ep).head? = some 0x2E then (fp ++ ep).tail.takeWhile isDigitB else []) = ds ∧
        (if (fp ++ ep).head? = some 0x2E then (fp ++ ep).tail.dropWhile isDigitB else fp ++ ep) = ep := by
      rcases hfp with ⟨rfl, rfl⟩ | rfl
      · have : ¬ ep.head? = some 0x2E := by
          cases ep with
          | nil => simp
          | cons c u => simpa using (hepE c u rfl).2
        simp [this]
      · obtain ⟨e3, e4⟩ := takeWhile_stop (digitsB hds) hstop
        simp [e3, e4]
    rw [hfrac.1, hfrac.2]
    congr 2
    rcases hep with ⟨rfl, rfl⟩ | ⟨e, sg, d, rfl, -, hd, hdn, hsx⟩
    · rfl
    · rcases hsx with ⟨rfl | rfl, rfl⟩ | ⟨rfl, rfl⟩
      · cases d with
        | nil => exact absurd rfl hdn
        | cons c d =>
          have hc := digit_plain (hd c (by simp))
          simp [hc.2.2.1, hc.2.2.2]
      · rfl
      · rfl

theorem textValue_unique {t : Bytes} {q r : Rat} (h : TextValue t q) (h' : TextValue t r) : q = r := (textValue_eq h).trans (textValue_eq h').symm

theorem textValue_goFloat {t : Bytes} {q : Rat} (h : TextValue t q) : GoFloat t := by
  cases h with
  | mk neg ip fp ds ep x hip hds hfp hne hep =>
    refine ⟨sign neg, ip, fp, ds, ep, rfl, ?_, hip, ?_, ?_, ?_⟩
    · cases neg <;> simp [sign]
    · rcases hfp with ⟨rfl, -⟩ | rfl
      · exact .inl rfl
      · exact .inr ⟨rfl, hds⟩
    · rcases hep with ⟨rfl, -⟩ | ⟨e, sg, d, rfl, he, hd, hdn, hsx⟩
      · exact .inl rfl
      · refine .inr ⟨e, sg, d, rfl, he, ?_, hdn, hd⟩
        rcases hsx with ⟨h | h, -⟩ | ⟨h, -⟩ <;> simp [h]
    · by_cases h0 : ip = []
      · refine .inr ?_
        subst h0
        rcases hfp with ⟨-, rfl⟩ | rfl
        · exact absurd rfl hne
        · exact ⟨by simp, by simpa using hne⟩
      · exact .inl h0

/-! ### functions that round -/

open Classical in
/-- the bits of the number nearest to `q` -/
noncomputable def nearBits (F : Fmt) (q : Rat) : Nat := if h : 0 ≤ q then (nearest_exists F h).choose else 0

theorem nearBits_spec (F : Fmt) {q : Rat} (h : 0 ≤ q) : Nearest F q (nearBits F q) := by
  unfold nearBits
  rw [dif_pos h]
  exact (nearest_exists F h).choose_spec

open Classical in
/-- an environment whose functions on floats do what Go's are documented to do -/
noncomputable def ieeeEnv (E : Env) : Env := { E with
  parseFloat := fun t => if (∃ q, TextValue t q) ∧ nearBits double (textQ t).abs ≠ double.inf then
    some (pack (t.head? == some 0x2D) (nearBits double (textQ t).abs)) else none
  u64ToF64 := fun u => pack false (nearBits double (u.toNat : Rat))
  i64ToF64 := fun i => pack (decide (i.toInt < 0)) (nearBits double (i.toInt.natAbs : Rat))
  f64ToI64 := fun f => BitVec.ofInt 64 (trunc (floatValue f))
  f64ToU64 := fun f => BitVec.ofInt 64 (trunc (floatValue f))
  f64ToF32 := fun f => pack32 f.msb (nearBits single (floatValue f).abs) }

theorem ieeeEnv_ok (E : Env) : Ieee (ieeeEnv E) where
  syntax' := fun t _ h => by
    simp only [ieeeEnv] at h
    split at h
    · rename_i hq
      obtain ⟨⟨q, hq⟩, -⟩ := hq
      exact textValue_goFloat hq
    · exact absurd rfl h
  parse := fun t q hq _ => by
    refine ⟨nearBits double q.abs, nearBits_spec _ Rat.abs_nonneg, ?_⟩
    have e := textValue_eq hq
    have hE : ∃ q, TextValue t q := ⟨q, hq⟩
    subst e
    by_cases h : nearBits double (textQ t).abs = double.inf <;> simp [ieeeEnv, h, hE]
  u64 := fun u => ⟨_, nearBits_spec _ Rat.natCast_nonneg, rfl⟩
  i64 := fun u => ⟨_, nearBits_spec _ Rat.natCast_nonneg, rfl⟩
  toI64 := fun f _ h1 h2 => by
    simp only [ieeeEnv]
    rw [BitVec.toInt_ofInt, Int.bmod_eq_of_le] <;> omega
  toU64 := fun f _ h1 h2 => by
    simp only [ieeeEnv]
    rw [BitVec.toNat_ofInt]
    omega
  toF32 := fun f b _ hb _ => by
    simp only [ieeeEnv]
    rw [nearest_unique hb (nearBits_spec _ Rat.abs_nonneg)]

/-! ### the fewest digits exist -/

/-- a least element by a natural measure -/
theorem exists_least {α : Type} (P : α → Prop) (m : α → Nat) (h : ∃ a, P a) : ∃ a, P a ∧ ∀ b, P b → m a ≤ m b := by
  obtain ⟨a, ha⟩ := h
  generalize hn : m a = n
  induction n using Nat.strongRecOn generalizing a with
  | _ n ih =>
    by_cases hb : ∃ b, P b ∧ m b < n
    · obtain ⟨b, hb, hlt⟩ := hb
      exact ih _ hlt b hb rfl
    · refine ⟨a, ha, fun b hpb => ?_⟩
      apply Nat.le_of_not_lt
      intro hlt
      exact hb ⟨b, hpb, by omega⟩

/-- the distance from a natural number to a rational one, as a natural number -/
def ratDist (y : Rat) (M : Nat) : Nat := ((M : Int) * y.den - y.num).natAbs

theorem ratDist_spec (y : Rat) (M : Nat) : ((M : Rat) - y).abs * (y.den : Rat) = (ratDist y M : Rat) := by
  have hd : (0 : Rat) < (y.den : Rat) := Rat.natCast_pos.2 y.den_pos
  have hy : y * (y.den : Rat) = (y.num : Rat) := by
    have := Rat.num_divInt_den y
    rw [Rat.divInt_eq_div] at this
    rw [← Rat.div_mul_cancel (a := (y.num : Rat)) (b := (y.den : Rat)) (by grind)]
    congr 1
    exact this.symm
  have e : ((M : Rat) - y) * (y.den : Rat) = (((M : Int) * y.den - y.num : Int) : Rat) := by
    rw [Rat.intCast_sub, Rat.intCast_mul, ← hy]
    show _ = (M : Rat) * (y.den : Rat) - _
    grind
  unfold ratDist
  rcases abs_cases ((M : Rat) - y) with ⟨h1, h2⟩ | ⟨h1, h2⟩
  · have h3 := Rat.mul_le_mul_of_nonneg_right h1 (Rat.le_of_lt hd)
    rw [e] at h3
    have h4 : (0 : Int) ≤ (M : Int) * y.den - y.num := by
      rw [Rat.zero_mul] at h3
      exact Rat.intCast_nonneg.1 h3
    rw [h2, e]
    have h5 : ((((M : Int) * y.den - y.num).natAbs : Int)) = (M : Int) * y.den - y.num := by omega
    have h6 := congrArg (fun i : Int => (i : Rat)) h5
    exact h6.symm
  · have h3 := Rat.mul_le_mul_of_nonneg_right h1 (Rat.le_of_lt hd)
    rw [e] at h3
    have h4 : (M : Int) * y.den - y.num ≤ 0 := by
      rw [Rat.zero_mul] at h3
      exact Rat.intCast_nonpos.1 h3
    rw [h2]
    have h5 : ((((M : Int) * y.den - y.num).natAbs : Int)) = - ((M : Int) * y.den - y.num) := by omega
    have h6 : ((((M : Int) * y.den - y.num).natAbs : Int) : Rat) = - ((M : Rat) - y) * (y.den : Rat) := by
      rw [h5, Rat.intCast_neg, ← e]; grind
    exact h6.symm

theorem digitsValue_false (g : FDigits) : digitsValue false g = (decVal g.d : Rat) * (10 : Rat) ^ (g.dp - g.d.length) := by
  unfold digitsValue
  rw [if_neg (by decide), Rat.one_mul]

theorem fewest_exists (F : Fmt) {N b : Nat} (hN : 2 ^ (F.p + 1) < 10 ^ N) (hi : b < F.inf) : ∃ g, Fewest F b g := by
  by_cases hb : b = 0
  · subst hb
    have e : digitsValue false ⟨[], 0⟩ = F.val 0 := by
      rw [F.val_zero, digitsValue_false, show decVal [] = 0 from rfl, show ((0 : Nat) : Rat) = 0 from rfl, Rat.zero_mul]
    refine ⟨⟨[], 0⟩, ?_, ?_, fun _ => rfl, ?_, ?_, ?_⟩
    · intro c hc; cases hc
    · intro u h; cases h
    · rw [e]; exact nearest_self (Nat.zero_le _)
    · intro g' _ _; exact Nat.zero_le _
    · intro g' _ _ _
      rw [e, show F.val 0 - F.val 0 = 0 by grind, Rat.abs_zero]
      exact Rat.abs_nonneg
  have hb := Nat.pos_of_ne_zero hb
  obtain ⟨g1, hd1, -, -, -, hn1⟩ := digits_exist F hN hb hi
  -- fewest digits
  obtain ⟨g2, ⟨hd2, hn2⟩, hmin⟩ := exists_least (fun g : FDigits => Digits g.d ∧ Nearest F (digitsValue false g) b) (fun g => g.d.length) ⟨g1, hd1, hn1⟩
  -- they are not too small
  obtain ⟨k, hk, -⟩ := val_log10 F (show 0 < 1 by omega)
  have hlo : ∀ g : FDigits, Digits g.d → Nearest F (digitsValue false g) b → k ≤ g.dp := by
    intro g hd hn
    apply Int.not_lt.1
    intro hlt
    obtain ⟨c, rfl⟩ : ∃ c, b = c + 1 := ⟨b - 1, by omega⟩
    have h1 := (nearest_bounds hn).2 c rfl
    have h2 := F.val_nonneg c
    have h3 := F.val_le (show 1 ≤ c + 1 by omega)
    have h4 := decVal_le _ hd
    have h5 : digitsValue false g < (10 : Rat) ^ g.dp := by
      rw [digitsValue_false]
      have : (10 : Rat) ^ g.dp = (10 : Rat) ^ (g.d.length : Int) * (10 : Rat) ^ (g.dp - g.d.length) := by
        rw [← ten_add]; congr 1; omega
      rw [this, ten_nat]
      exact Rat.mul_lt_mul_of_pos_right (Rat.natCast_lt_natCast.2 h4) (ten_pos _)
    have h6 := ten_mono (show g.dp ≤ k - 1 by omega)
    have h7 := ten_succ (k - 1)
    rw [show k - 1 + 1 = k by omega] at h7
    have h8 := ten_pos (k - 1)
    grind
  -- the values with that many digits are multiples of a power of ten
  obtain ⟨L, hL⟩ : ∃ L, L = g2.d.length := ⟨_, rfl⟩
  have hs := ten_pos (k - L)
  obtain ⟨y, hy⟩ : ∃ y : Rat, y * (10 : Rat) ^ (k - L) = F.val b := ⟨F.val b / (10 : Rat) ^ (k - L), Rat.div_mul_cancel (by grind)⟩
  have hmul : ∀ g : FDigits, Digits g.d → Nearest F (digitsValue false g) b → g.d.length = L →
      digitsValue false g = ((decVal g.d * 10 ^ (g.dp - k).toNat : Nat) : Rat) * (10 : Rat) ^ (k - L) := by
    intro g hd hn hl
    have := hlo g hd hn
    rw [digitsValue_false, hl, Rat.natCast_mul, ← ten_nat, Rat.mul_assoc, ← ten_add]
    congr 2
    omega
  obtain ⟨g, ⟨hd, hn, hl⟩, hclose⟩ := exists_least (fun g : FDigits => Digits g.d ∧ Nearest F (digitsValue false g) b ∧ g.d.length = L)
    (fun g => ratDist y (decVal g.d * 10 ^ (g.dp - k).toNat)) ⟨g2, hd2, hn2, hL.symm⟩
  refine ⟨g, hd, ?_, fun h => absurd h (by omega), hn, ?_, ?_⟩
  · intro u hu
    have hd' : Digits u := fun c hc => hd c (by rw [hu]; simp [hc])
    have hv : digitsValue false ⟨u, g.dp - 1⟩ = digitsValue false g := by
      rw [digitsValue_false, digitsValue_false, hu, show (0x30 : UInt8) :: u = [0x30] ++ u from rfl, decVal_cat]
      rw [show decVal [0x30] = 0 from rfl, Nat.zero_mul, Nat.zero_add]
      congr 2
      simp only [List.length_append, List.length_singleton]
      omega
    have := hmin ⟨u, g.dp - 1⟩ ⟨hd', by rw [hv]; exact hn⟩
    have h2 : g.d.length = u.length + 1 := by rw [hu]; rfl
    have h3 : g2.d.length ≤ u.length := this
    omega
  · intro g' hd' hn'
    have := hmin g' ⟨hd', hn'⟩
    omega
  · intro g' hd' hl' hn'
    have h1 := hclose g' ⟨hd', hn', by omega⟩
    rw [hmul g hd hn hl, hmul g' hd' hn' (by omega), ← hy]
    have key : ∀ M : Nat, ((M : Rat) * (10 : Rat) ^ (k - L) - y * (10 : Rat) ^ (k - L)).abs = ((M : Rat) - y).abs * (10 : Rat) ^ (k - L) := by
      intro M
      have e : (M : Rat) * (10 : Rat) ^ (k - L) - y * (10 : Rat) ^ (k - L) = ((M : Rat) - y) * (10 : Rat) ^ (k - L) := by grind
      rw [e]
      rcases abs_cases ((M : Rat) - y) with ⟨h2, h3⟩ | ⟨h2, h3⟩
      · have := Rat.mul_le_mul_of_nonneg_right h2 (Rat.le_of_lt hs)
        rw [h3, Rat.abs_of_nonneg (by grind)]
      · have := Rat.mul_le_mul_of_nonneg_right h2 (Rat.le_of_lt hs)
        rw [h3, Rat.abs_of_nonpos (by grind)]
        grind
    rw [key, key]
    refine Rat.mul_le_mul_of_nonneg_right ?_ (Rat.le_of_lt hs)
    have hden : (0 : Rat) < (y.den : Rat) := Rat.natCast_pos.2 y.den_pos
    refine Rat.le_of_mul_le_mul_right (c := (y.den : Rat)) ?_ hden
    rw [ratDist_spec, ratDist_spec]
    exact Rat.natCast_le_natCast.2 h1

open Classical in
/-- a `strconv` that finds the fewest digits -/
noncomputable def goDigitsFn : DigitFn := fun w f _ _ =>
  if w then if h : ∃ g b, b < single.inf ∧ double.val (magnitude f) = single.val b ∧ Fewest single b g then h.choose else ⟨[], 0⟩
  else if h : ∃ g, Fewest double (magnitude f) g then h.choose else ⟨[], 0⟩

theorem val_inj {F : Fmt} {a b : Nat} (h : F.val a = F.val b) : a = b := by
  have h1 := val_le_iff.1 (show F.val a ≤ F.val b by rw [h]; exact Rat.le_refl)
  have h2 := val_le_iff.1 (show F.val b ≤ F.val a by rw [h]; exact Rat.le_refl)
  omega

theorem goDigitsFn_ok : GoDigits goDigitsFn where
  same := fun w f fmt => rfl
  double := fun f hf => by
    have h := fewest_exists double (N := 16) (b := magnitude f) (by decide) hf
    simp only [shortest, goDigitsFn]
    rw [if_neg (by decide), dif_pos h]
    exact h.choose_spec
  single := fun f b hf hb he => by
    have h : ∃ g b, b < single.inf ∧ double.val (magnitude f) = single.val b ∧ Fewest single b g := by
      obtain ⟨g, hg⟩ := fewest_exists single (N := 8) (b := b) (by decide) hb
      exact ⟨g, b, hb, he, hg⟩
    simp only [shortest, goDigitsFn]
    rw [if_pos trivial, dif_pos h]
    obtain ⟨b', h1, h2, h3⟩ := h.choose_spec
    rw [he] at h2
    obtain rfl := val_inj h2
    exact h3

end JV
