import Verif.Proofs.Predict
/-! A run, one call after another, after which the predictor is 0. -/
namespace JV

/-- the prediction, when it can be computed -/
def predicted (sh : Shared) : Int :=
  if sh.bpv > 0#64 then sh.bpv.toInt else (calcTotal sh.store / calcNum sh.store).toInt

/-- the words after a whole call -/
def after (sh : Shared) (len n : Nat) : Shared :=
  let nextTotal := BitVec.ofNat 64 len + calcTotal sh.store
  let nextNum := BitVec.ofNat 64 n + calcNum sh.store
  if nextTotal < 0x7FFFFFFF#64 then { sh with store := (nextTotal <<< 32) + nextNum }
  else { bpv := nextTotal / nextNum, store := ((nextTotal / nextNum) <<< 32) + 1#64 }

theorem move_last {E : Env} {sh sh' : Shared} {ths : List Thread} {th th' : Thread} (h : Reach E ⟨sh, ths ++ [th]⟩)
    (hs : stepThread E sh th = some (sh', th')) : Reach E ⟨sh', ths ++ [th']⟩ := by
  have := Reach.step h (PStep.move ⟨sh, ths ++ [th]⟩ ths.length th th' sh' (by simp) hs)
  simpa using this

/-- up to the point where the prediction is known -/
theorem call_enter {E : Env} {sh : Shared} {ths : List Thread} {b : Bytes} (h : Reach E ⟨sh, ths⟩) (hb : b ≠ [])
    (hn : calcNum sh.store ≠ 0#64) : Reach E ⟨sh, ths ++ [enter E { input := b } (predicted sh)]⟩ := by
  have h1 : Reach E ⟨sh, ths ++ [{ input := b }]⟩ := .step h (.call _ b hb)
  unfold predicted
  by_cases hbpv : sh.bpv > 0#64
  · rw [if_pos hbpv]
    exact move_last h1 (by simp [stepThread, hbpv])
  · rw [if_neg hbpv]
    have h2 : Reach E ⟨sh, ths ++ [{ input := b, pc := .readCalc }]⟩ := move_last h1 (by simp [stepThread, hbpv])
    have h3 : Reach E ⟨sh, ths ++ [enter E { input := b, pc := .readCalc } (calcTotal sh.store / calcNum sh.store).toInt]⟩ :=
      move_last h2 (by simp [stepThread, hn])
    have : enter E { input := b, pc := .readCalc } (calcTotal sh.store / calcNum sh.store).toInt =
        enter E { input := b } (calcTotal sh.store / calcNum sh.store).toInt := by
      unfold enter
      split
      · rfl
      · simp only
    rw [this] at h3; exact h3

/-- a call without interference -/
theorem call_done {E : Env} {sh : Shared} {ths : List Thread} {b : Bytes} {n : Nat} (h : Reach E ⟨sh, ths⟩) (hb : b ≠ [])
    (hn : calcNum sh.store ≠ 0#64) (hp : 0 < predicted sh) (hreq : ∀ cnt, (parseIn E cnt b).2.actual = n)
    (hnn : BitVec.ofNat 64 n + calcNum sh.store ≠ 0#64) :
    ∃ th, th.input = b ∧ (∃ r, th.pc = .done r) ∧ Reach E ⟨after sh b.length n, ths ++ [th]⟩ := by
  have h1 := call_enter h hb hn
  have hcnt : 0 ≤ Int.tdiv b.length (predicted sh) := Int.tdiv_nonneg (Int.natCast_nonneg _) (by omega)
  have he : enter E { input := b } (predicted sh) =
      { input := b, cnt := (Int.tdiv b.length (predicted sh)).toNat,
        pc := .release n (parseIn E (Int.tdiv b.length (predicted sh)).toNat b).1 } := by
    unfold enter
    rw [if_neg (by omega)]
    simp only
    rw [if_neg (by omega), hreq]
  rw [he] at h1
  generalize (Int.tdiv b.length (predicted sh)).toNat = cnt at h1
  have h2 := move_last h1 rfl
  unfold accumulate at h2
  unfold after
  simp only at h2 ⊢
  by_cases hlt : BitVec.ofNat 64 b.length + calcTotal sh.store < 0x7FFFFFFF#64
  · rw [if_pos hlt] at h2 ⊢
    exact ⟨_, rfl, ⟨_, rfl⟩, move_last h2 rfl⟩
  · rw [if_neg hlt, if_neg hnn] at h2
    rw [if_neg hlt]
    have h3 := move_last h2 rfl
    exact ⟨_, rfl, ⟨_, rfl⟩, move_last h3 rfl⟩

/-- the text `null` -/
def textNull : Bytes := [0x6E, 0x75, 0x6C, 0x6C]
/-- the text `1` -/
def textOne : Bytes := [0x31]

theorem null_requests (E : Env) (cnt : Nat) : (parseIn E cnt textNull).2.actual = 0 := rfl

theorem one_requests (E : Env) (cnt : Nat) : (parseIn E cnt textOne).2.actual = 1 := by
  cases cnt <;> rfl

/-- reachable by calls on `null` and `1` only, all of which have returned -/
def Can (E : Env) (sh : Shared) : Prop :=
  ∃ ths : List Thread, (∀ th ∈ ths, (th.input = textNull ∨ th.input = textOne) ∧ ∃ r, th.pc = .done r) ∧ Reach E ⟨sh, ths⟩

theorem after_word {sh : Shared} {T N len n : Nat} (hw : Word sh.store T N) (hlen : len < 2^31) (hn : n ≤ len) (hpos : 0 < n + N) :
    after sh len n =
      if len + T < 0x7FFFFFFF then { sh with store := BitVec.ofNat 64 ((len + T) * 2^32 + (n + N)) }
      else { bpv := BitVec.ofNat 64 ((len + T) / (n + N)), store := BitVec.ofNat 64 ((len + T) / (n + N) * 2^32 + 1) } := by
  have h1 := hw.total
  have h2 := hw.num
  have ht : BitVec.ofNat 64 len + calcTotal sh.store = BitVec.ofNat 64 (len + T) := by
    apply BitVec.eq_of_toNat_eq
    rw [BitVec.toNat_add, hw.calcTotal, BitVec.toNat_ofNat, BitVec.toNat_ofNat]; omega
  have hm : BitVec.ofNat 64 n + calcNum sh.store = BitVec.ofNat 64 (n + N) := by
    apply BitVec.eq_of_toNat_eq
    rw [BitVec.toNat_add, hw.calcNum, BitVec.toNat_ofNat, BitVec.toNat_ofNat]; omega
  unfold after
  simp only [ht, hm]
  have hshift : ∀ a : Nat, BitVec.ofNat 64 a <<< 32 = BitVec.ofNat 64 (a * 2^32) := by
    intro a
    apply BitVec.eq_of_toNat_eq
    rw [BitVec.toNat_shiftLeft, BitVec.toNat_ofNat, BitVec.toNat_ofNat, Nat.shiftLeft_eq]
    omega
  have hadd : ∀ a b : Nat, BitVec.ofNat 64 a + BitVec.ofNat 64 b = BitVec.ofNat 64 (a + b) := by
    intro a b; rw [BitVec.ofNat_add]
  have hdiv : BitVec.ofNat 64 (len + T) / BitVec.ofNat 64 (n + N) = BitVec.ofNat 64 ((len + T) / (n + N)) := by
    apply BitVec.eq_of_toNat_eq
    rw [BitVec.toNat_udiv, BitVec.toNat_ofNat, BitVec.toNat_ofNat, BitVec.toNat_ofNat]
    have := Nat.div_le_self (len + T) (n + N)
    rw [Nat.mod_eq_of_lt (a := len + T) (by omega), Nat.mod_eq_of_lt (a := n + N) (by omega), Nat.mod_eq_of_lt (by omega)]
  by_cases hlt : len + T < 0x7FFFFFFF
  · rw [if_pos hlt, if_pos, hshift, hadd]
    rw [BitVec.lt_def, BitVec.toNat_ofNat, BitVec.toNat_ofNat]; omega
  · rw [if_neg hlt, if_neg, hdiv, hshift, hadd]
    rw [BitVec.lt_def, BitVec.toNat_ofNat, BitVec.toNat_ofNat]; omega

theorem Can.call {E : Env} {sh : Shared} {T N n : Nat} {b : Bytes} (h : Can E sh) (hb : (b = textNull ∧ n = 0) ∨ (b = textOne ∧ n = 1))
    (hw : Word sh.store T N) (hN : 0 < N) (hp : 0 < predicted sh) : Can E (after sh b.length n) := by
  obtain ⟨ths, hall, hr⟩ := h
  have hne : ∀ m : Nat, m ≤ 1 → BitVec.ofNat 64 m + calcNum sh.store ≠ 0#64 := by
    intro m hm h
    have := congrArg BitVec.toNat h
    have h2 := hw.num
    rw [BitVec.toNat_add, hw.calcNum, BitVec.toNat_ofNat] at this
    simp at this; omega
  have hreq : ∀ cnt, (parseIn E cnt b).2.actual = n := by
    intro cnt
    rcases hb with ⟨rfl, rfl⟩ | ⟨rfl, rfl⟩
    · exact null_requests E cnt
    · exact one_requests E cnt
  have hne0 : b ≠ [] := by rcases hb with ⟨rfl, _⟩ | ⟨rfl, _⟩ <;> simp [textNull, textOne]
  have hn0 : calcNum sh.store ≠ 0#64 := by have := hne 0 (by omega); simpa using this
  obtain ⟨th, h1, h2, h3⟩ := call_done hr hne0 hn0 hp hreq (hne n (by rcases hb with ⟨_, rfl⟩ | ⟨_, rfl⟩ <;> omega))
  refine ⟨_, ?_, h3⟩
  intro x hx
  simp only [List.mem_append, List.mem_singleton] at hx
  rcases hx with hx | rfl
  · exact hall x hx
  · exact ⟨by rw [h1]; rcases hb with ⟨h, _⟩ | ⟨h, _⟩ <;> simp [h], h2⟩

theorem word_ofNat {T N : Nat} (hT : T < 2^32) (hN : N < 2^32) : Word (BitVec.ofNat 64 (T * 2^32 + N)) T N :=
  ⟨by rw [BitVec.toNat_ofNat]; omega, hN, hT⟩

theorem predicted_bpv {sh : Shared} (h : 0 < sh.bpv.toNat) (h' : sh.bpv.toNat < 2^63) : 0 < predicted sh := by
  unfold predicted
  rw [if_pos (by rw [gt_iff_lt, BitVec.lt_def]; simpa using h), BitVec.toInt_eq_toNat_cond, if_pos (by omega)]
  omega

theorem predicted_word {sh : Shared} {T N : Nat} (hb : sh.bpv = 0#64) (hw : Word sh.store T N) (hN : 0 < N) (h : N ≤ T) : 0 < predicted sh := by
  unfold predicted
  rw [if_neg (by rw [hb]; decide)]
  have h1 : (calcTotal sh.store / calcNum sh.store).toNat = T / N := by rw [BitVec.toNat_udiv, hw.calcTotal, hw.calcNum]
  have h2 : 1 ≤ T / N := (Nat.one_le_div_iff (by omega)).mpr (by omega)
  have h3 := Nat.div_le_self T N
  have h4 := hw.total
  rw [BitVec.toInt_eq_toNat_cond, h1, if_pos (by omega)]
  omega

/-- `null` again and again: the total grows, the number of values stays 1 -/
theorem phase1 (E : Env) (k : Nat) (hk : 16 + 4 * k < 0x7FFFFFFF) : Can E ⟨0#64, BitVec.ofNat 64 ((16 + 4 * k) * 2^32 + 1)⟩ := by
  induction k with
  | zero => exact ⟨[], by simp, Reach.init⟩
  | succ k ih =>
    have h := ih (by omega)
    have hw := word_ofNat (T := 16 + 4 * k) (N := 1) (by omega) (by omega)
    have h2 := h.call (b := textNull) (n := 0) (.inl ⟨rfl, rfl⟩) hw (by omega) (predicted_word rfl hw (by omega) (by omega))
    rw [after_word hw (by simp [textNull]) (by omega) (by omega)] at h2
    have e : textNull.length + (16 + 4 * k) = 16 + 4 * (k + 1) := by simp [textNull]; omega
    rw [e, if_pos hk] at h2
    simpa using h2

/-- and goes on growing past 2^31 in both words -/
theorem phase2 (E : Env) (k : Nat) (hk : 0x7FFFFFFF ≤ 16 + 4 * k) (hk' : 16 + 4 * k ≤ 2^32) :
    Can E ⟨BitVec.ofNat 64 (16 + 4 * k), BitVec.ofNat 64 ((16 + 4 * k) * 2^32 + 1)⟩ := by
  induction k with
  | zero => omega
  | succ k ih =>
    have hw := word_ofNat (T := 16 + 4 * k) (N := 1) (by omega) (by omega)
    have e : textNull.length + (16 + 4 * k) = 16 + 4 * (k + 1) := by simp [textNull]; omega
    by_cases h0 : 16 + 4 * k < 0x7FFFFFFF
    · have h := phase1 E k h0
      have h2 := h.call (b := textNull) (n := 0) (.inl ⟨rfl, rfl⟩) hw (by omega) (predicted_word rfl hw (by omega) (by omega))
      rw [after_word hw (by simp [textNull]) (by omega) (by omega), e, if_neg (by omega)] at h2
      simpa using h2
    · have h := ih (by omega) (by omega)
      have h2 := h.call (b := textNull) (n := 0) (.inl ⟨rfl, rfl⟩) hw (by omega)
        (predicted_bpv (by simp only [BitVec.toNat_ofNat]; omega) (by simp only [BitVec.toNat_ofNat]; omega))
      rw [after_word hw (by simp [textNull]) (by omega) (by omega), e, if_neg (by omega)] at h2
      simpa using h2

/-- until `per << 32` overflows; then `1` again and again: one value more than bytes -/
theorem phase3 (E : Env) (k : Nat) (hk : k < 0x7FFFFFFF) : Can E ⟨BitVec.ofNat 64 (2^32), BitVec.ofNat 64 (k * 2^32 + (k + 1))⟩ := by
  induction k with
  | zero =>
    have h := phase2 E (2^30 - 4) (by omega) (by omega)
    have e1 : 16 + 4 * (2^30 - 4) = 2^32 := by omega
    rw [e1] at h
    have e2 : BitVec.ofNat 64 (2^32 * 2^32 + 1) = BitVec.ofNat 64 (0 * 2^32 + (0 + 1)) := by
      apply BitVec.eq_of_toNat_eq; simp
    rw [e2] at h
    exact h
  | succ k ih =>
    have h := ih (by omega)
    have hw := word_ofNat (T := k) (N := k + 1) (by omega) (by omega)
    have h2 := h.call (b := textOne) (n := 1) (.inr ⟨rfl, rfl⟩) hw (by omega) (predicted_bpv (by simp) (by simp))
    have e : textOne.length + k = k + 1 := by simp [textOne]; omega
    have e' : 1 + (k + 1) = k + 1 + 1 := by omega
    rw [after_word hw (by simp [textOne]) (by simp [textOne]) (by omega), e, e', if_pos hk] at h2
    exact h2

/-- the predictor is 0 -/
theorem phase4 (E : Env) : Can E ⟨0#64, 1#64⟩ := by
  have h := phase3 E 0x7FFFFFFE (by omega)
  have hw := word_ofNat (T := 0x7FFFFFFE) (N := 0x7FFFFFFE + 1) (by omega) (by omega)
  have h2 := h.call (b := textOne) (n := 1) (.inr ⟨rfl, rfl⟩) hw (by omega) (predicted_bpv (by simp) (by simp))
  rw [after_word hw (by simp [textOne]) (by simp [textOne]) (by omega), if_neg (by simp [textOne])] at h2
  simpa [textOne] using h2

theorem panics (E : Env) (b : Bytes) (hb : b ≠ []) : ∃ p th, Reach E p ∧ th ∈ p.threads ∧ th.input = b ∧ th.pc = .panicked ∧
    ∀ x ∈ p.threads, x.input = textNull ∨ x.input = textOne ∨ x = th := by
  obtain ⟨ths, hall, hr⟩ := phase4 E
  have h := call_enter hr hb (by decide)
  have e : enter E { input := b } (predicted ⟨0#64, 1#64⟩) = { input := b, pc := .panicked } := by
    have : predicted ⟨0#64, 1#64⟩ = 0 := by decide
    rw [this]; unfold enter; rw [if_pos rfl]
  rw [e] at h
  refine ⟨_, { input := b, pc := .panicked }, h, by simp, rfl, rfl, ?_⟩
  intro x hx
  simp only [List.mem_append, List.mem_singleton] at hx
  rcases hx with hx | rfl
  · rcases (hall x hx).1 with h | h
    · exact .inl h
    · exact .inr (.inl h)
  · exact .inr (.inr rfl)

end JV
