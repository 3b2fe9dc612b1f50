import Verif.Model.CompareWork
import Verif.Spec.CompareWork
import Verif.Spec.Size
import Verif.Proofs.Doc
import Verif.Proofs.Decimal
import Verif.Proofs.MarshalApi
import Verif.Proofs.IeeeDigits
/-! What comparing costs. -/
namespace JV
open Spec

/-! ### digits -/

theorem natDigits_ten {n : Nat} (hn : 0 < n) : (natDigits (n * 10)).length = (natDigits n).length + 1 := by
  rw [natDigits, dif_neg (by omega)]
  simp

theorem natDigits_pow {n : Nat} (hn : 0 < n) (k : Nat) : (natDigits (n * 10 ^ k)).length = (natDigits n).length + k := by
  induction k with
  | zero => simp
  | succ k ih => rw [Nat.pow_succ, ← Nat.mul_assoc, natDigits_ten (Nat.mul_pos hn (Nat.pow_pos (by omega))), ih]; omega

theorem natDigits_pos (n : Nat) : 1 ≤ (natDigits n).length := by
  have := (natDigits_spec n).2.1
  cases h : natDigits n with
  | nil => exact absurd h this
  | cons a t => simp

theorem natDigits_pow_le (n k : Nat) : (natDigits (n * 10 ^ k)).length ≤ (natDigits n).length + k := by
  by_cases h : n = 0
  · subst h; simp
  · rw [natDigits_pow (by omega)]; exact Nat.le_refl _

theorem natAbs_pow (m : Int) (k : Nat) : (m * 10 ^ k).natAbs = m.natAbs * 10 ^ k := by
  rw [Int.natAbs_mul, Int.natAbs_pow]; rfl

/-- the digits of two decimals that are brought to the same exponent -/
theorem dec_work_le (a b : Dec) : a.work b ≤ (natDigits a.m.natAbs).length + (natDigits b.m.natAbs).length + (a.e - b.e).natAbs := by
  unfold Dec.work Dec.rescale
  simp only [natAbs_pow]
  have h1 := natDigits_pow_le a.m.natAbs (a.e - min a.e b.e).toNat
  have h2 := natDigits_pow_le b.m.natAbs (b.e - min a.e b.e).toNat
  have : (a.e - min a.e b.e).toNat + (b.e - min a.e b.e).toNat = (a.e - b.e).natAbs := by omega
  omega

/-- exactly, if neither is 0 -/
theorem dec_work_eq (a b : Dec) (ha : a.m ≠ 0) (hb : b.m ≠ 0) :
    a.work b = (natDigits a.m.natAbs).length + (natDigits b.m.natAbs).length + (a.e - b.e).natAbs := by
  unfold Dec.work Dec.rescale
  simp only [natAbs_pow]
  rw [natDigits_pow (by omega), natDigits_pow (by omega)]
  omega

/-! ### what NewFromString makes of a text -/

theorem parseDigits_some {s : Bytes} {n : Nat} (h : parseDigits s = some n) : Digits s ∧ s ≠ [] ∧ n = decVal s := by
  unfold parseDigits at h
  split at h
  · cases h
  · rename_i hc
    simp only [Bool.or_eq_true, List.isEmpty_iff, Bool.not_eq_true', not_or, Bool.not_eq_false] at hc
    exact ⟨digits_of hc.2, hc.1, by cases h; rfl⟩

theorem parseSigned_some {s : Bytes} {z : Int} (h : parseSigned s = some z) :
    ∃ sg d, s = sg ++ d ∧ (sg = [] ∨ sg = [0x2B] ∨ sg = [0x2D]) ∧ Digits d ∧ d ≠ [] ∧ z.natAbs = decVal d := by
  unfold parseSigned at h
  split at h
  · rename_i t
    cases hp : parseDigits t with
    | none => simp [hp] at h
    | some n =>
      obtain ⟨h1, h2, rfl⟩ := parseDigits_some hp
      simp [hp] at h
      exact ⟨[0x2D], t, rfl, by simp, h1, h2, by omega⟩
  · rename_i t
    cases hp : parseDigits t with
    | none => simp [hp] at h
    | some n =>
      obtain ⟨h1, h2, rfl⟩ := parseDigits_some hp
      simp [hp] at h
      exact ⟨[0x2B], t, rfl, by simp, h1, h2, by omega⟩
  · cases hp : parseDigits s with
    | none => simp [hp] at h
    | some n =>
      obtain ⟨h1, h2, rfl⟩ := parseDigits_some hp
      simp [hp] at h
      exact ⟨[], s, rfl, by simp, h1, h2, by omega⟩

theorem natDigits_le_of {d : Bytes} (hd : Digits d) (hne : d ≠ []) : (natDigits (decVal d)).length ≤ d.length := by
  by_cases h0 : decVal d = 0
  · rw [h0]
    have : (natDigits 0).length = 1 := by decide +kernel
    cases d with
    | nil => exact absurd rfl hne
    | cons a t => simp [this]
  · exact natDigits_few (by omega) (decVal_le d hd)

theorem signed_digits {s : Bytes} {z : Int} (h : parseSigned s = some z) : (natDigits z.natAbs).length ≤ s.length := by
  obtain ⟨sg, d, rfl, -, h3, h4, h5⟩ := parseSigned_some h
  rw [h5]
  have := natDigits_le_of h3 h4
  simp; omega

theorem take_drop_while (p : UInt8 → Bool) (s : Bytes) : s = s.takeWhile p ++ s.dropWhile p := (List.takeWhile_append_dropWhile).symm

theorem dropWhile_head {p : UInt8 → Bool} {s : Bytes} {c : UInt8} {t : Bytes} (h : s.dropWhile p = c :: t) : p c = false := by
  induction s with
  | nil => cases h
  | cons a s ih =>
    rw [List.dropWhile_cons] at h
    split at h
    · exact ih h
    · rename_i hp
      cases h
      simpa using hp

/-- digits and exponent -/
theorem newFromString_some {s : Bytes} {d : Dec} (h : newFromString s = some d) :
    (natDigits d.m.natAbs).length ≤ s.length ∧ fitsInt32 d.e = true ∧ ∀ X, ExpUpTo X s → -((X : Int) + s.length) ≤ d.e ∧ d.e ≤ X := by
  unfold newFromString at h
  simp only at h
  have hs := take_drop_while (fun c => !isE c) s
  cases hx : parseExp (s.dropWhile fun c => !isE c) with
  | none => rw [hx] at h; cases h
  | some x =>
    simp only [hx] at h
    have hX : ∀ X, ExpUpTo X s → x.natAbs ≤ X := by
      intro X hX
      cases hr : s.dropWhile (fun c => !isE c) with
      | nil => rw [hr] at hx; cases hx; simp
      | cons e t =>
        rw [hr] at hx hs
        simp only [parseExp] at hx
        cases hp : parseSigned t with
        | none => simp [hp] at hx
        | some z =>
          simp only [hp, Option.bind_some] at hx
          split at hx
          · cases hx
            obtain ⟨sg, dd, rfl, h2, h3, h4, h5⟩ := parseSigned_some hp
            rw [h5]
            refine hX _ e sg dd ((by simpa using hs)) ?_ h2 h3
            have := dropWhile_head hr
            simp only [isE, Bool.not_eq_eq_eq_not, Bool.not_false, Bool.or_eq_true, beq_iff_eq] at this
            exact this
          · cases hx
    have hlen : (s.takeWhile fun c => !isE c).length ≤ s.length := by
      have := congrArg List.length hs
      simp only [List.length_append] at this
      omega
    have hb := take_drop_while (fun c => !isDot c) (s.takeWhile fun c => !isE c)
    have hbl := congrArg List.length hb
    simp only [List.length_append] at hbl
    split at h
    · rename_i hd
      cases hp : parseSigned ((s.takeWhile fun c => !isE c).takeWhile fun c => !isDot c) with
      | none => rw [hp] at h; cases h
      | some m =>
        simp only [hp] at h
        split at h
        · rename_i hf
          cases h
          have := signed_digits hp
          refine ⟨by simp only; omega, hf, fun X hX' => ?_⟩
          have := hX X hX'
          simp only; omega
        · cases h
    · rename_i c fp hd
      split at h
      · cases h
      · cases hp : parseSigned ((s.takeWhile fun c => !isE c).takeWhile (fun c => !isDot c) ++ fp) with
        | none => rw [hp] at h; cases h
        | some m =>
          simp only [hp] at h
          split at h
          · rename_i hf
            cases h
            have := signed_digits hp
            rw [hd] at hbl
            simp only [List.length_append, List.length_cons] at hbl this
            refine ⟨by simp only; omega, hf, fun X hX' => ?_⟩
            have := hX X hX'
            simp only; omega
          · cases h

/-- the same with the decimal 0 if there is an error -/
theorem decOf_bounds {s : Bytes} (hne : s ≠ []) :
    (natDigits (decOf newFromString s).m.natAbs).length ≤ s.length ∧ -2 ^ 31 ≤ (decOf newFromString s).e ∧ (decOf newFromString s).e < 2 ^ 31 ∧
      ∀ X, ExpUpTo X s → -((X : Int) + s.length) ≤ (decOf newFromString s).e ∧ (decOf newFromString s).e ≤ X := by
  unfold decOf
  cases h : newFromString s with
  | none =>
    have h1 : (natDigits 0).length = 1 := by decide +kernel
    have : 1 ≤ s.length := by
      cases s with
      | nil => exact absurd rfl hne
      | cons a t => simp
    simp only [Option.getD_none]
    refine ⟨by simp only [Int.natAbs_zero, h1]; exact this, by decide, by decide, fun X _ => ⟨by omega, by omega⟩⟩
  | some d =>
    obtain ⟨h1, h2, h3⟩ := newFromString_some h
    simp only [fitsInt32, Bool.and_eq_true, decide_eq_true_eq] at h2
    exact ⟨h1, h2.1, h2.2, h3⟩

/-! ### Equal -/

/-- which texts are compared at a bounded cost: the exponents of two of them differ by no more than `2 * X` and their lengths -/
structure Cheap (D : DecFn) (X : Nat) (Q : Bytes → Prop) : Prop where
  text : ∀ s, Q s → 1 ≤ s.length
  digits : ∀ s, Q s → (natDigits (decOf D s).m.natAbs).length ≤ s.length
  exps : ∀ s t, Q s → Q t → ((decOf D s).e - (decOf D t).e).natAbs ≤ 2 * X + s.length + t.length

theorem cheap_upTo (X : Nat) : Cheap newFromString X (fun s => s ≠ [] ∧ ExpUpTo X s) where
  text := fun s h => List.length_pos_iff.2 h.1
  digits := fun s h => (decOf_bounds h.1).1
  exps := fun s t hs ht => by
    have h1 := (decOf_bounds hs.1).2.2.2 X hs.2
    have h2 := (decOf_bounds ht.1).2.2.2 X ht.2
    omega

theorem cheap_all : Cheap newFromString (2 ^ 31) (fun s => s ≠ []) where
  text := fun s h => List.length_pos_iff.2 h
  digits := fun s h => (decOf_bounds h).1
  exps := fun s t hs ht => by
    have h1 := (decOf_bounds hs).2
    have h2 := (decOf_bounds ht).2
    omega

/-- the node condition -/
def CheapNode (Q : Bytes → Prop) : V → Prop
  | .num src _ => Q src
  | _ => True

theorem sameWork_le (s t : Bytes) : sameWork s t ≤ s.length ∧ sameWork s t ≤ t.length := by
  unfold sameWork
  split <;> omega

theorem numberWork_le {D : DecFn} {X : Nat} {Q : Bytes → Prop} (h : Cheap D X Q) {s t : Bytes} (hs : Q s) (ht : Q t) :
    1 + numberWork' D s t ≤ (X + 5) * (s.length + t.length) := by
  unfold numberWork'
  have h1 := (sameWork_le s t).1
  have h2 := h.text s hs
  have h3 := h.text t ht
  have h4 : X * 2 ≤ X * (s.length + t.length) := Nat.mul_le_mul_left X (by omega)
  rw [Nat.add_mul]
  split
  · omega
  · have h5 := dec_work_le (decOf D s) (decOf D t)
    have h6 := h.digits s hs
    have h7 := h.digits t ht
    have h8 := h.exps s t hs ht
    omega

theorem weightM_erase {k : Bytes} {r : List Ent} {e : Ent} (h : lookup k r = some e) : weightM r = weightM (erase k r) + (k.length + 3 + weight e.v) := by
  induction r with
  | nil => cases h
  | cons a r ih =>
    obtain ⟨k', i, w⟩ := a
    unfold lookup at h
    unfold erase
    split at h
    · rename_i hk
      cases h
      rw [if_pos hk, ← hk]
      simp only [weightM, Ent.key, Ent.v]
      omega
    · rename_i hk
      rw [if_neg hk]
      have := ih h
      simp only [weightM]
      omega

/-- the weights of the members of `r` that have the keys of `es` -/
def foundWeight (r : List Ent) : List Ent → Nat
  | [] => 0
  | e :: es => (match lookup e.key r with | none => 0 | some x => weight x.v) + foundWeight r es

theorem keys_erase_nodup {k : Bytes} {r : List Ent} (h : (keys r).Nodup) : (keys (erase k r)).Nodup := by
  induction r with
  | nil => simpa [erase] using h
  | cons a r ih =>
    unfold erase
    simp only [keys, List.map_cons, List.nodup_cons] at h
    split
    · exact h.2
    · simp only [keys, List.map_cons, List.nodup_cons]
      refine ⟨fun hm => h.1 ?_, ih h.2⟩
      clear ih h
      induction r with
      | nil => simp [erase] at hm
      | cons b r ih =>
        unfold erase at hm
        split at hm
        · simp only [List.map_cons, List.mem_cons]; exact .inr hm
        · simp only [List.map_cons, List.mem_cons] at hm ⊢
          rcases hm with hm | hm
          · exact .inl hm
          · exact .inr (ih hm)

theorem foundWeight_le : ∀ (es r : List Ent), (keys es).Nodup → (keys r).Nodup → foundWeight r es ≤ weightM r
  | [], r, _, _ => by simp [foundWeight]
  | e :: es, r, hn, hr => by
    simp only [keys, List.map_cons, List.nodup_cons] at hn
    unfold foundWeight
    cases h : lookup e.key r with
    | none =>
      have := foundWeight_le es r hn.2 hr
      simp only; omega
    | some x =>
      have h1 := weightM_erase h
      have h2 := foundWeight_le es (erase e.key r) hn.2 (keys_erase_nodup hr)
      have h3 : foundWeight (erase e.key r) es = foundWeight r es := by
        have hk := hn.1
        clear hn h1 h2 h
        induction es with
        | nil => rfl
        | cons a es ih =>
          simp only [List.map_cons, List.mem_cons, not_or] at hk
          unfold foundWeight
          rw [ih hk.2, lookup_erase _ _ _ hr, if_neg (fun h => hk.1 h)]
      simp only; omega

theorem equalWork_le {D : DecFn} {X : Nat} {Q : Bytes → Prop} (hQ : Cheap D X Q) (v : V) :
    ∀ w, Her KeysNodup v → Her (CheapNode Q) v → Her KeysNodup w → Her (CheapNode Q) w → equalWork D v w ≤ (X + 5) * (weight v + weight w) := by
  have five : ∀ n : Nat, 1 ≤ n → n + 1 ≤ (X + 5) * n := fun n hn => by
    rw [Nat.add_mul]; omega
  have big : ∀ (a n : Nat), a ≤ 5 * n → a ≤ (X + 5) * n := fun a n h => by
    rw [Nat.add_mul]; have := Nat.zero_le (X * n); omega
  induction v using kid_ind with
  | step v ih =>
    intro w hkv hv hkw hw
    cases v with
    | nilp => exact big _ _ (by simp only [equalWork, weight]; omega)
    | notExist => exact big _ _ (by simp only [equalWork, weight]; omega)
    | bool b => exact big _ _ (by simp only [equalWork, weight]; omega)
    | null => exact big _ _ (by simp only [equalWork, weight]; omega)
    | str s =>
      refine big _ _ ?_
      unfold equalWork
      simp only [weight]
      cases w <;> simp only [weight] <;> try omega
      rename_i t
      have := sameWork_le s t
      omega
    | num s n =>
      have hs : Q s := her_self hv
      have h1 := hQ.text s hs
      unfold equalWork
      cases w with
      | num t m =>
        simp only [weight]
        exact numberWork_le hQ hs (her_self hw)
      | _ => refine big _ _ ?_; simp only [weight]; omega
    | arr xs =>
      unfold equalWork
      cases w with
      | arr ys =>
        simp only [weight]
        have key : ∀ (as bs : List V), (∀ a ∈ as, a ∈ xs) → (∀ b ∈ bs, b ∈ ys) → equalWorkL D as bs ≤ (X + 5) * (weightL as + weightL bs) := by
          intro as
          induction as with
          | nil => intro bs _ _; cases bs <;> simp [equalWorkL]
          | cons a as iha =>
            intro bs ha hb
            cases bs with
            | nil => simp [equalWorkL]
            | cons b bs =>
              have ka : Kid (.arr xs) a := ha a (by simp)
              have kb : Kid (.arr ys) b := hb b (by simp)
              have h1 := ih a ka b (her_kid hkv hkv ka) (her_kid hkv hv ka) (her_kid hkw hkw kb) (her_kid hkw hw kb)
              have h2 := iha bs (fun x hx => ha x (by simp [hx])) (fun x hx => hb x (by simp [hx]))
              unfold equalWorkL
              simp only [weightL]
              simp only [Nat.mul_add] at h1 h2 ⊢
              split <;> omega
        split
        · exact big _ _ (by omega)
        · have := key xs ys (fun _ h => h) (fun _ h => h)
          simp only [Nat.mul_add] at this ⊢
          omega
      | _ => refine big _ _ ?_; simp only [weight]; omega
    | obj n kvs low =>
      unfold equalWork
      cases w with
      | obj n' kvs' low' =>
        simp only [weight]
        have hn : (keys kvs).Nodup := her_self hkv
        have hn' : (keys kvs').Nodup := her_self hkw
        have key : ∀ es : List Ent, (∀ e ∈ es, e ∈ kvs) → equalWorkM D es kvs' ≤ (X + 5) * (weightM es + foundWeight kvs' es) := by
          intro es
          induction es with
          | nil => intro _; simp [equalWorkM]
          | cons e es ihe =>
            obtain ⟨k, i, c⟩ := e
            intro he
            have ka : Kid (.obj n kvs low) c := ⟨⟨k, i, c⟩, he _ (by simp), rfl⟩
            have h2 := ihe (fun x hx => he x (by simp [hx]))
            unfold equalWorkM foundWeight
            simp only [weightM, Ent.key]
            cases hl : lookup k kvs' with
            | none => simp only; exact big _ _ (by omega)
            | some x =>
              have kb : Kid (.obj n' kvs' low') x.v := ⟨x, (lookup_some_key hl).2, rfl⟩
              have h1 := ih c ka x.v (her_kid hkv hkv ka) (her_kid hkv hv ka) (her_kid hkw hkw kb) (her_kid hkw hw kb)
              have h3 : k.length + 1 ≤ (X + 5) * (k.length + 3) := big _ _ (by omega)
              simp only [Nat.mul_add] at h1 h2 h3 ⊢
              split <;> omega
        split
        · exact big _ _ (by omega)
        · have h1 := key kvs (fun _ h => h)
          have h2 := Nat.mul_le_mul_left (X + 5) (foundWeight_le kvs kvs' hn hn')
          simp only [Nat.mul_add] at h1 ⊢
          omega
      | _ => refine big _ _ ?_; simp only [weight]; omega

/-- no less than one for each value compared, as long as they are equal -/
theorem equalWork_pos (D : DecFn) (v w : V) : 1 ≤ equalWork D v w := by
  cases v <;> unfold equalWork <;> omega

/-! ### Contains -/

theorem weight_pos {Q : Bytes → Prop} (hQ : ∀ s, Q s → 1 ≤ s.length) {v : V} (hv : CheapNode Q v) : 1 ≤ weight v := by
  cases v <;> simp only [weight] <;> first | omega | exact hQ _ hv

theorem length_weightL {xs : List V} (h : ∀ x ∈ xs, 1 ≤ weight x) : xs.length ≤ weightL xs := by
  induction xs with
  | nil => simp
  | cons x xs ih =>
    have h1 := h x (by simp)
    have h2 := ih fun y hy => h y (by simp [hy])
    simp only [weightL, List.length_cons]; omega

/-- the weights of all the runs of `m` elements -/
def runWeights (m : Nat) : List V → Nat
  | [] => 0
  | x :: xs => weightL ((x :: xs).take m) + runWeights m xs

theorem runWeights_tail (m : Nat) (l : List V) : runWeights m l = weightL (l.take m) + runWeights m l.tail := by
  cases l <;> simp [runWeights, weightL]

theorem runWeights_succ (m : Nat) (xs : List V) : runWeights (m + 1) xs = weightL xs + runWeights m xs.tail := by
  induction xs with
  | nil => simp [runWeights, weightL]
  | cons x xs ih =>
    simp only [runWeights, List.take_succ_cons, weightL, List.tail_cons]
    rw [ih, runWeights_tail m xs]
    omega

theorem weightL_tail (xs : List V) : weightL xs.tail ≤ weightL xs := by
  cases xs <;> simp [weightL]

theorem runWeights_le (m : Nat) : ∀ xs : List V, runWeights m xs ≤ m * weightL xs := by
  induction m with
  | zero =>
    intro xs
    induction xs with
    | nil => simp [runWeights]
    | cons x xs ih => simp only [runWeights, List.take_zero, weightL]; omega
  | succ m ih =>
    intro xs
    rw [runWeights_succ, Nat.add_mul]
    have h1 := ih xs.tail
    have h2 := Nat.mul_le_mul_left m (weightL_tail xs)
    omega

section
variable {D : DecFn} {F : Nat} {xs ys : List V}

theorem runWork_le (hxs : ∀ x ∈ xs, ∀ y, y ∈ ys → equalWork D x y ≤ F * (weight x + weight y)) :
    ∀ (zs : List V) (i : Nat), (∀ z ∈ zs, z ∈ ys) → i + zs.length ≤ xs.length →
      runWork D xs i zs ≤ zs.length + F * (weightL ((xs.drop i).take zs.length) + weightL zs)
  | [], i, _, _ => by simp [runWork]
  | z :: zs, i, hz, hi => by
    simp only [List.length_cons] at hi
    have hlt : i < xs.length := by omega
    have ih := runWork_le hxs zs (i + 1) (fun y hy => hz y (by simp [hy])) (by omega)
    have h1 := hxs xs[i] (List.getElem_mem hlt) z (hz z (by simp))
    unfold runWork
    rw [List.getElem?_eq_getElem hlt, Option.getD_some, List.drop_eq_getElem_cons hlt, List.length_cons, List.take_succ_cons]
    simp only [weightL]
    simp only [Nat.mul_add] at h1 ih ⊢
    split <;> omega

theorem startsWork_le (hxs : ∀ x ∈ xs, ∀ y, y ∈ ys → equalWork D x y ≤ F * (weight x + weight y)) :
    ∀ (k a : Nat), k = 0 ∨ a + k + ys.length ≤ xs.length + 1 →
      startsWork D xs ys (List.range' a k) ≤ k * (1 + ys.length + F * weightL ys) + F * runWeights ys.length (xs.drop a)
  | 0, a, _ => by simp [startsWork]
  | k + 1, a, h => by
    have ih := startsWork_le hxs (k + 1 - 1) (a + 1) (by omega)
    rw [Nat.add_sub_cancel] at ih
    have h1 := runWork_le hxs ys a (fun _ h => h) (by omega)
    rw [runWeights_tail ys.length (xs.drop a), List.tail_drop, List.range'_succ]
    unfold startsWork
    simp only [Nat.mul_add, Nat.add_mul] at h1 ih ⊢
    split <;> omega
end

theorem two_le_mul {F a b : Nat} (ha : 1 ≤ a) (hb : 1 ≤ b) (hF : 1 ≤ F) : 1 + F * (a + b) ≤ 3 * F * (a * b) := by
  have h1 : a + b ≤ a * b + 1 := by
    obtain ⟨a, rfl⟩ := Nat.exists_eq_add_of_le ha
    obtain ⟨b, rfl⟩ := Nat.exists_eq_add_of_le hb
    simp only [Nat.add_mul, Nat.mul_add]
    have := Nat.zero_le (a * b)
    omega
  have h2 : 1 ≤ a * b := Nat.mul_pos ha hb
  have h3 := Nat.mul_le_mul_left F h1
  have h4 := Nat.mul_le_mul_left F h2
  rw [Nat.mul_add F (a * b)] at h3
  rw [Nat.mul_assoc]
  omega

theorem containsWork_le {E : Env} {D : DecFn} {X : Nat} {Q : Bytes → Prop} (hQ : Cheap D X Q) (sub : V) :
    ∀ v, Her KeysNodup sub → Her (CheapNode Q) sub → Her KeysNodup v → Her (CheapNode Q) v →
      containsWork E D sub v ≤ 3 * (X + 5) * (weight v * weight sub) := by
  have one : ∀ {v sub : V}, Her (CheapNode Q) v → Her (CheapNode Q) sub → 1 ≤ 3 * (X + 5) * (weight v * weight sub) := fun hv hs =>
    Nat.mul_pos (by omega) (Nat.mul_pos (weight_pos hQ.text (her_self hv)) (weight_pos hQ.text (her_self hs)))
  induction sub using kid_ind with
  | step sub ih =>
    intro v hks hs hkv hv
    have hw1 := weight_pos hQ.text (her_self hv)
    have hw2 := weight_pos hQ.text (her_self hs)
    have scalar : 1 + equalWork D v sub ≤ 3 * (X + 5) * (weight v * weight sub) := by
      have h1 := equalWork_le hQ v sub hkv hv hks hs
      have h2 := two_le_mul (F := X + 5) hw1 hw2 (by omega)
      omega
    cases sub with
    | nilp => exact one hv hs
    | notExist => exact scalar
    | bool b => exact scalar
    | null => exact scalar
    | str s => exact scalar
    | num s n => exact scalar
    | arr ys =>
      unfold containsWork
      cases v with
      | arr xs =>
        simp only
        unfold subsetWork
        split
        · exact one hv hs
        · split
          · have h1 := equalWork_le hQ (.arr ys) (.arr xs) hks hs hkv hv
            have h2 := two_le_mul (F := X + 5) hw1 hw2 (by omega)
            rw [Nat.add_comm (weight (.arr ys))] at h1
            omega
          · split
            · exact one hv hs
            · rename_i h0 h1 h2
              have hx : ∀ x ∈ xs, ∀ y, y ∈ ys → equalWork D x y ≤ (X + 5) * (weight x + weight y) := by
                intro x hx y hy
                have kx : Kid (.arr xs) x := hx
                have ky : Kid (.arr ys) y := hy
                exact equalWork_le hQ x y (her_kid hkv hkv kx) (her_kid hkv hv kx) (her_kid hks hks ky) (her_kid hks hs ky)
              have hlx : xs.length ≤ weightL xs := length_weightL fun x hx => weight_pos hQ.text (her_self (her_kid hkv hv (show Kid (.arr xs) x from hx)))
              have hly : ys.length ≤ weightL ys := length_weightL fun y hy => weight_pos hQ.text (her_self (her_kid hks hs (show Kid (.arr ys) y from hy)))
              have h3 := startsWork_le hx (xs.length - ys.length + 1) 0 (.inr (by omega))
              rw [List.range_eq_range']
              have h4 := runWeights_le ys.length xs
              simp only [List.drop_zero] at h3
              have hk : xs.length - ys.length + 1 ≤ weightL xs := by omega
              generalize xs.length - ys.length + 1 = k at *
              simp only [weight]
              generalize weightL xs = A at *
              generalize weightL ys = B at *
              generalize startsWork D xs ys (List.range' 0 k) = T at *
              have e1 : (X + 5) * runWeights ys.length xs ≤ (X + 5) * (A * B) :=
                Nat.mul_le_mul_left _ (Nat.le_trans h4 (by rw [Nat.mul_comm A B]; exact Nat.mul_le_mul_right A hly))
              have e2 : k * (1 + ys.length + (X + 5) * B) ≤ A * (1 + B + (X + 5) * B) := Nat.mul_le_mul hk (by omega)
              have e3 : A * (1 + B + (X + 5) * B) = A + A * B + (X + 5) * (A * B) := by
                simp only [Nat.mul_add, Nat.add_mul, Nat.mul_one, Nat.mul_left_comm A]
              have e4 : 3 * (X + 5) * ((A + 2) * (B + 2)) = 3 * ((X + 5) * (A * B)) + 3 * ((X + 5) * (2 * B)) + 3 * ((X + 5) * (A * 2)) + 3 * ((X + 5) * 4) := by
                simp only [Nat.mul_add, Nat.add_mul, Nat.mul_assoc]
                omega
              have e5 : A * B ≤ (X + 5) * (A * B) := Nat.le_mul_of_pos_left _ (by omega)
              have e6 : A ≤ (X + 5) * (A * 2) := Nat.le_trans (by omega : A ≤ A * 2) (Nat.le_mul_of_pos_left _ (by omega))
              rw [e4]
              omega
      | _ => exact one hv hs
    | obj n kvs low =>
      unfold containsWork
      cases v with
      | obj n' kvs' low' =>
        simp only
        generalize hW : weight (.obj n' kvs' low') = A at *
        have key : ∀ es : List Ent, (∀ e ∈ es, e ∈ kvs) → objectSubsetWork E D (.obj n' kvs' low') es ≤ 3 * (X + 5) * (A * weightM es) := by
          intro es
          induction es with
          | nil => intro _; simp [objectSubsetWork]
          | cons e es ihe =>
            obtain ⟨k, i, c⟩ := e
            intro he
            have ka : Kid (.obj n kvs low) c := ⟨⟨k, i, c⟩, he _ (by simp), rfl⟩
            have h2 := ihe (fun x hx => he x (by simp [hx]))
            unfold objectSubsetWork
            simp only [weightM]
            have h3 : k.length + 1 ≤ 3 * (X + 5) * (A * (k.length + 3)) :=
              Nat.le_trans (Nat.le_trans (by omega : k.length + 1 ≤ k.length + 3) (Nat.le_mul_of_pos_left _ hw1)) (Nat.le_mul_of_pos_left _ (by omega))
            rw [get_key]
            cases hl : lookup k kvs' with
            | none =>
              simp only [Nat.mul_add] at h3 ⊢
              omega
            | some x =>
              have kb : Kid (.obj n' kvs' low') x.v := ⟨x, (lookup_some_key hl).2, rfl⟩
              have h1 := ih c ka x.v (her_kid hks hks ka) (her_kid hks hs ka) (her_kid hkv hkv kb) (her_kid hkv hv kb)
              have h4 : weight x.v ≤ A := by
                rw [← hW]
                have := weightM_erase hl
                simp only [weight]; omega
              have h5 : 3 * (X + 5) * (weight x.v * weight c) ≤ 3 * (X + 5) * (A * weight c) := Nat.mul_le_mul_left _ (Nat.mul_le_mul_right _ h4)
              simp only
              simp only [Nat.mul_add] at h1 h2 h3 h5 ⊢
              split <;> omega
        have h1 := key kvs (fun _ h => h)
        simp only [weight]
        have h2 : 1 ≤ 3 * (X + 5) * (A * 2) := Nat.mul_pos (by omega) (by omega)
        rw [Nat.mul_add A, Nat.mul_add (3 * (X + 5))]
        omega
      | _ => exact one hv hs

end JV
