import Verif.Proofs.GrammarComplete
/-! Number tokens: what the scanner accepts and the value it computes. -/
namespace JV
open Spec

theorem isDigit19_iff (c : UInt8) : isDigit19 c = true ↔ (0x31 ≤ c.toNat ∧ c.toNat ≤ 0x39) := (numChar_facts c).2
theorem toNat_inj8 {a b : UInt8} : a = b ↔ a.toNat = b.toNat := UInt8.toNat_inj.symm

/-- digits of the integer part from position `pos` on, `n` being the value so far -/
def zerosFrom (neg : Bool) (pos n : Nat) : Bytes → Prop
  | [] => True
  | c :: ds => (c = 0x30 → pos = 0 ∨ n % 2 ^ 64 ≠ 0 ∨ (neg = true ∧ pos = 1)) ∧ zerosFrom neg (pos + 1) (10 * n + (c.toNat - 0x30)) ds

def valFrom (n : Nat) (ds : Bytes) : Nat := ds.foldl (fun a c => 10 * a + (c.toNat - 0x30)) n

theorem ofNat_mul10_add (n d : Nat) : BitVec.ofNat 64 n * 10 + BitVec.ofNat 64 d = BitVec.ofNat 64 (10 * n + d) := by
  rw [Nat.mul_comm, BitVec.ofNat_add, BitVec.ofNat_mul]; rfl

theorem digit_step {st : NumSt} {c : UInt8} {pos n : Nat} (hc : Digit c) (h1 : st.floated = false) (h2 : st.exponentGot = false) (h3 : st.dotGot = false)
    (hi : st.integer = BitVec.ofNat 64 n) (hz : c = 0x30 → pos = 0 ∨ n % 2 ^ 64 ≠ 0 ∨ (st.negative = true ∧ pos = 1)) :
    numStep pos st c = .ok (some { st with integer := BitVec.ofNat 64 (10 * n + (c.toNat - 0x30)) }) := by
  have i0 : st.integer = 0#64 ↔ n % 2 ^ 64 = 0 := by
    rw [hi]
    constructor
    · intro h; have := congrArg BitVec.toNat h; simpa using this
    · intro h; apply BitVec.eq_of_toNat_eq; simpa using h
  unfold numStep
  by_cases h0 : c = 0x30
  · have hn : BitVec.ofNat 64 (10 * n + (c.toNat - 0x30)) = st.integer * 10 := by
      rw [hi, h0, ← ofNat_mul10_add]; simp
    rw [if_pos h0, hn]
    simp only [h2, h3, Bool.false_eq_true, if_false]
    rcases hz h0 with hz | hz | hz
    · simp [hz]
    · by_cases hp : pos = 0
      · simp [hp]
      · rw [if_neg hp]
        have : ¬ st.integer = 0#64 := mt i0.1 hz
        by_cases hneg : st.negative = true
        · rw [if_pos hneg, if_neg (fun h => this h.1)]; rfl
        · rw [if_neg hneg, if_neg this]; rfl
    · rw [if_neg (by omega), if_pos hz.1, if_neg (fun h => h.2 hz.2)]; rfl
  · rw [if_neg h0]
    have h4 : isDigit19 c = true := by
      rw [isDigit19_iff]; have := mt toNat_inj8.2 h0; unfold Digit at hc; simp at this; omega
    rw [if_pos h4]
    simp only [h1, Bool.not_false, if_true, R.pure_eq, R.ok.injEq, Option.some.injEq]
    congr 1
    rw [hi, ← ofNat_mul10_add]
    have h5 : 0x30 ≤ c.toNat := hc.1
    have : BitVec.ofNat 64 (c.toNat - 0x30) = BitVec.ofNat 64 c.toNat - 0x30 := by
      apply BitVec.eq_of_toNat_eq
      have := c.toNat_lt
      simp [BitVec.toNat_sub]; omega
    rw [this]
    generalize BitVec.ofNat 64 n * 10 = a
    generalize BitVec.ofNat 64 c.toNat = b
    rw [BitVec.sub_eq_add_neg, BitVec.sub_eq_add_neg, BitVec.add_assoc]

theorem digit_step_err {st : NumSt} {pos n : Nat} (h2 : st.exponentGot = false) (h3 : st.dotGot = false)
    (hi : st.integer = BitVec.ofNat 64 n) (hz : ¬ (pos = 0 ∨ n % 2 ^ 64 ≠ 0 ∨ (st.negative = true ∧ pos = 1))) :
    numStep pos st 0x30 = .err .other := by
  have i0 : st.integer = 0#64 := by
    rw [hi]
    apply BitVec.eq_of_toNat_eq; simp; omega
  unfold numStep
  rw [if_pos rfl, if_neg (by omega), h2, h3]
  simp only [Bool.false_eq_true, if_false]
  by_cases hneg : st.negative = true
  · rw [if_pos hneg, if_pos ⟨i0, fun h => hz (.inr (.inr ⟨hneg, h⟩))⟩]
  · rw [if_neg hneg, if_pos i0]

theorem digits_loop {st : NumSt} (ds : Bytes) (hd : Digits ds) (h1 : st.floated = false) (h2 : st.exponentGot = false) (h3 : st.dotGot = false)
    (acc rest : Bytes) (n : Nat) (hi : st.integer = BitVec.ofNat 64 n) :
    (zerosFrom st.negative acc.length n ds →
      numLoop acc st (ds ++ rest) = numLoop (acc ++ ds) { st with integer := BitVec.ofNat 64 (valFrom n ds) } rest) ∧
    (¬ zerosFrom st.negative acc.length n ds → numLoop acc st (ds ++ rest) = .err .other) := by
  induction ds generalizing acc n st with
  | nil =>
    simp only [zerosFrom, valFrom, List.foldl_nil, List.nil_append, List.append_nil, true_implies, not_true_eq_false, false_implies, and_true]
    rw [← hi]
  | cons c ds ih =>
    have hc := hd c (by simp)
    have hds : Digits ds := fun x hx => hd x (by simp [hx])
    simp only [zerosFrom, List.cons_append, numLoop]
    by_cases hz : (c = 0x30 → acc.length = 0 ∨ n % 2 ^ 64 ≠ 0 ∨ (st.negative = true ∧ acc.length = 1))
    · rw [digit_step hc h1 h2 h3 hi hz]
      simp only [R.bind_ok]
      have := ih (st := { st with integer := BitVec.ofNat 64 (10 * n + (c.toNat - 0x30)) }) hds h1 h2 h3 (acc ++ [c]) (10 * n + (c.toNat - 0x30)) rfl
      simp only [List.length_append, List.length_cons, List.length_nil] at this
      refine ⟨fun h => ?_, fun h => this.2 (fun h' => h ⟨hz, h'⟩)⟩
      rw [this.1 h.2]
      simp [valFrom]
    · refine ⟨fun h => absurd h.1 hz, fun _ => ?_⟩
      have hc0 : c = 0x30 := Classical.byContradiction (fun h => hz (fun h' => absurd h' h))
      rw [hc0, digit_step_err h2 h3 hi (fun h => hz (fun _ => h))]; rfl

/-- digits after the dot -/
theorem frac_loop {st : NumSt} (ds : Bytes) (hd : Digits ds) (h1 : st.floated = true) (h2 : st.exponentGot = false) (h3 : st.dotGot = true)
    (acc rest : Bytes) (ha : acc ≠ []) : ∃ i, numLoop acc st (ds ++ rest) =
      numLoop (acc ++ ds) { st with integer := i, intAfterDotGot := st.intAfterDotGot || !ds.isEmpty } rest := by
  induction ds generalizing acc st with
  | nil => exact ⟨st.integer, by simp⟩
  | cons c ds ih =>
    have hc := hd c (by simp)
    have hds : Digits ds := fun x hx => hd x (by simp [hx])
    have hl : acc.length ≠ 0 := by simpa using ha
    have : ∃ i, numStep acc.length st c = .ok (some { st with integer := i, intAfterDotGot := true }) := by
      unfold numStep
      by_cases h0 : c = 0x30
      · exact ⟨st.integer * 10, by rw [if_pos h0, if_neg hl]; simp [h2, h3]⟩
      · have h4 : isDigit19 c = true := by
          rw [isDigit19_iff]; have := mt toNat_inj8.2 h0; unfold Digit at hc; simp at this; omega
        exact ⟨st.integer, by rw [if_neg h0, if_pos h4]; simp [h1, h2]⟩
    obtain ⟨i, hs⟩ := this
    obtain ⟨j, hj⟩ := ih (st := { st with integer := i, intAfterDotGot := true }) hds h1 h2 h3 (acc ++ [c]) (by simp)
    exact ⟨j, by simp only [List.cons_append, numLoop, hs, R.bind_ok, hj]; simp⟩

/-- digits of the exponent -/
theorem exp_loop {st : NumSt} (ds : Bytes) (hd : Digits ds) (h1 : st.floated = true) (h2 : st.exponentGot = true)
    (acc rest : Bytes) (ha : acc ≠ []) : ∃ i, numLoop acc st (ds ++ rest) = numLoop (acc ++ ds) { st with integer := i } rest := by
  induction ds generalizing acc st with
  | nil => exact ⟨st.integer, by simp⟩
  | cons c ds ih =>
    have hc := hd c (by simp)
    have hds : Digits ds := fun x hx => hd x (by simp [hx])
    have hl : acc.length ≠ 0 := by simpa using ha
    have : ∃ i, numStep acc.length st c = .ok (some { st with integer := i }) := by
      unfold numStep
      by_cases h0 : c = 0x30
      · exact ⟨st.integer * 10, by rw [if_pos h0, if_neg hl]; simp [h2]⟩
      · have h4 : isDigit19 c = true := by
          rw [isDigit19_iff]; have := mt toNat_inj8.2 h0; unfold Digit at hc; simp at this; omega
        exact ⟨st.integer, by rw [if_neg h0, if_pos h4]; rw [if_neg (by simp [h1]), if_neg (by simp [h2])]; rfl⟩
    obtain ⟨i, hs⟩ := this
    obtain ⟨j, hj⟩ := ih (st := { st with integer := i }) hds h1 h2 (acc ++ [c]) (by simp)
    exact ⟨j, by simp only [List.cons_append, numLoop, hs, R.bind_ok, hj]; simp⟩

theorem expPart_loop {st : NumSt} {ep : Bytes} (he : ep = [] ∨ ExpPart ep) (h2 : st.exponentGot = false)
    (acc : Bytes) : ∃ i, numLoop acc st ep =
      .ok ({ st with integer := i, exponentGot := !ep.isEmpty, floated := st.floated || !ep.isEmpty }, acc ++ ep, []) := by
  rcases he with rfl | ⟨e, sg, ds, rfl, he, hsg, hne, hd⟩
  · refine ⟨st.integer, ?_⟩
    simp [numLoop]
    rw [← h2]
  · have s1 : numStep acc.length st e = .ok (some { st with exponentGot := true, floated := true }) := by
      rcases he with rfl | rfl <;> simp [numStep, h2, isDigit19]
    have s2 : ∀ rest, numLoop (acc ++ [e]) { st with exponentGot := true, floated := true } (sg ++ rest) =
        numLoop (acc ++ [e] ++ sg) { st with exponentGot := true, floated := true } rest := by
      intro rest
      rcases hsg with rfl | rfl | rfl
      · simp
      · simp [numLoop, numStep, isDigit19]
      · simp [numLoop, numStep, isDigit19]
    obtain ⟨i, hi⟩ := exp_loop (st := { st with exponentGot := true, floated := true }) ds hd rfl rfl (acc ++ [e] ++ sg) [] (by simp)
    refine ⟨i, ?_⟩
    rw [List.append_nil] at hi
    simp only [List.cons_append, numLoop, s1, R.bind_ok]
    rw [s2, hi]
    simp [numLoop]

theorem fracPart_loop {st : NumSt} {fp : Bytes} {ds : Bytes} (hf : fp = 0x2E :: ds) (hd : Digits ds) (h1 : st.floated = false) (h2 : st.exponentGot = false) (h3 : st.dotGot = false)
    (acc rest : Bytes) (ha : acc ≠ []) : ∃ i, numLoop acc st (fp ++ rest) =
      numLoop (acc ++ fp) { st with integer := i, dotGot := true, floated := true, intAfterDotGot := st.intAfterDotGot || !ds.isEmpty } rest := by
  subst hf
  have s1 : numStep acc.length st 0x2E = .ok (some { st with dotGot := true, floated := true }) := by
    simp [numStep, isDigit19, h1, h2, h3, ha]
  obtain ⟨i, hi⟩ := frac_loop (st := { st with dotGot := true, floated := true }) ds hd rfl h2 rfl (acc ++ [0x2E]) rest (by simp)
  refine ⟨i, ?_⟩
  simp only [List.cons_append, numLoop, s1, R.bind_ok]
  rw [hi]
  simp

theorem sign_loop (neg : Bool) (rest : Bytes) : numLoop [] {} (sign neg ++ rest) = numLoop (sign neg) { negative := neg } rest := by
  cases neg
  · rfl
  · simp [sign, numLoop, numStep, isDigit19]

theorem int_loop (neg : Bool) (ip rest : Bytes) (hd : Digits ip) :
    (zerosFrom neg (sign neg).length 0 ip →
      numLoop [] {} (sign neg ++ (ip ++ rest)) = numLoop (sign neg ++ ip) { negative := neg, integer := BitVec.ofNat 64 (decVal ip) } rest) ∧
    (¬ zerosFrom neg (sign neg).length 0 ip → numLoop [] {} (sign neg ++ (ip ++ rest)) = .err .other) := by
  rw [sign_loop]
  exact digits_loop (st := { negative := neg }) ip hd rfl rfl rfl (sign neg) rest 0 rfl

/-- The whole scan of a text of floating point shape. -/
theorem float_scan (neg : Bool) (ip fp ds ep : Bytes) (hd : Digits ip) (hf : fp = [] ∨ (fp = 0x2E :: ds ∧ Digits ds)) (he : ep = [] ∨ ExpPart ep)
    (hne : sign neg ++ ip ≠ []) :
    (zerosFrom neg (sign neg).length 0 ip → ∃ i, numLoop [] {} (sign neg ++ ip ++ fp ++ ep) =
      .ok ({ negative := neg, floated := !(fp ++ ep).isEmpty, exponentGot := !ep.isEmpty, dotGot := !fp.isEmpty,
             intAfterDotGot := !fp.isEmpty && !ds.isEmpty, integer := i }, sign neg ++ ip ++ fp ++ ep, [])) ∧
    (¬ zerosFrom neg (sign neg).length 0 ip → numLoop [] {} (sign neg ++ ip ++ fp ++ ep) = .err .other) := by
  have h := int_loop neg ip (fp ++ ep) hd
  simp only [List.append_assoc] at h ⊢
  refine ⟨fun hz => ?_, h.2⟩
  rw [h.1 hz]
  rcases hf with rfl | ⟨hf, hds⟩
  · obtain ⟨i, hi⟩ := expPart_loop (st := { negative := neg, integer := BitVec.ofNat 64 (decVal ip) }) he rfl (sign neg ++ ip)
    exact ⟨i, by rw [List.nil_append, hi]; simp⟩
  · obtain ⟨i, hi⟩ := fracPart_loop (st := { negative := neg, integer := BitVec.ofNat 64 (decVal ip) }) hf hds rfl rfl rfl (sign neg ++ ip) ep hne
    obtain ⟨j, hj⟩ := expPart_loop (st := { negative := neg, floated := true, dotGot := true, intAfterDotGot := !ds.isEmpty, integer := i }) he rfl (sign neg ++ ip ++ fp)
    refine ⟨j, ?_⟩
    rw [hi]
    simp only [Bool.false_or]
    rw [hj]
    simp [hf]

theorem zerosFrom_iff (neg : Bool) (p : Nat) (n : Nat) (ds : Bytes) :
    zerosFrom neg p n ds ↔ ∀ a b, ds = a ++ 0x30 :: b → (p + a.length = 0 ∨ valFrom n a % 2 ^ 64 ≠ 0 ∨ (neg = true ∧ p + a.length = 1)) := by
  induction ds generalizing p n with
  | nil => simp [zerosFrom]
  | cons c ds ih =>
    simp only [zerosFrom, ih]
    constructor
    · rintro ⟨h1, h2⟩ a b hab
      match a with
      | [] => simp at hab; simpa [valFrom] using h1 hab.1
      | x :: a =>
        simp at hab
        obtain ⟨rfl, rfl⟩ := hab
        have := h2 a b rfl
        simp only [List.length_cons, valFrom, List.foldl_cons] at this ⊢
        have e : p + 1 + a.length = p + (a.length + 1) := by omega
        rwa [e] at this
    · intro h
      refine ⟨fun hc => by simpa [valFrom] using h [] ds (by simp [hc]), fun a b hab => ?_⟩
      have := h (c :: a) b (by simp [hab])
      simp only [List.length_cons, valFrom, List.foldl_cons] at this ⊢
      have e : p + 1 + a.length = p + (a.length + 1) := by omega
      rwa [e]

/-- the internal condition is `ZerosOK` -/
theorem zerosFrom_sign (neg : Bool) (ip : Bytes) : zerosFrom neg (sign neg).length 0 ip ↔ ZerosOK ip := by
  rw [zerosFrom_iff]
  unfold ZerosOK
  have hv : ∀ a, valFrom 0 a = decVal a := fun _ => rfl
  constructor
  · intro h a b hab
    have := h a b hab
    rw [hv] at this
    cases neg <;> simp [sign] at this ⊢
    · rcases this with h | h
      · exact .inr h
      · exact .inl h
    · rcases this with h | h
      · exact .inl h
      · exact .inr (by simpa using h)
  · intro h a b hab
    have := h a b hab
    rw [hv]
    rcases this with h | rfl
    · exact .inr (.inl h)
    · cases neg <;> simp [sign]

theorem finishNumber_float {E : Env} {st : NumSt} {text : Bytes} {c : UInt8} (h : st.floated = true) :
    finishNumber E st text c = if st.dotGot && !st.intAfterDotGot then .err .other else floatResult E text := by
  simp [finishNumber, h]

/-- the number read from a floating point token -/
def floatNum (E : Env) (f : BitVec 64) : Num := { negative := fltNeg f, floated := true, i64 := E.f64ToI64 f, u64 := E.f64ToU64 f, f64 := f }

theorem sign_start (neg : Bool) (ip rest : Bytes) (hd : Digits ip) (hne : sign neg ++ ip ≠ []) :
    ∃ c t, sign neg ++ ip ++ rest = c :: t ∧ isNumStart c = true ∧ (neg = true → c = 0x2D) ∧ (neg = false → ∃ u, ip = c :: u) := by
  cases neg
  · match ip with
    | [] => simp [sign] at hne
    | c :: u =>
      refine ⟨c, u ++ rest, by simp [sign], ?_, by simp, fun _ => ⟨u, rfl⟩⟩
      have := (numChar_facts c).1.2 (hd c (by simp))
      simp [isNumStart, this]
  · exact ⟨0x2D, ip ++ rest, by simp [sign], by decide, by simp, by simp⟩

theorem floatTok_parse {E : Env} {neg : Bool} {ip fp ep text : Bytes} (h : FloatTok neg ip fp ep text) (c : UInt8) (t : Bytes) (ht : text = c :: t) :
    parseNumber E text = (do let n ← floatResult E text; pure (n, text, [])) := by
  obtain ⟨h1, h2, h3, h4, h5, h6, rfl⟩ := h
  have hne : sign neg ++ ip ≠ [] := by
    intro h; simp at h; have := h5 h.2; simp [sign, this.1] at h
  have hf : ∃ ds, (fp = [] ∨ (fp = 0x2E :: ds ∧ Digits ds)) ∧ (fp ≠ [] → ds ≠ []) := by
    rcases h2 with h2 | ⟨ds, g1, g2, g3⟩
    · exact ⟨[], .inl h2, fun h => absurd h2 h⟩
    · exact ⟨ds, .inr ⟨g1, g3⟩, fun _ => g2⟩
  obtain ⟨ds, hf, hds⟩ := hf
  obtain ⟨i, hs⟩ := (float_scan neg ip fp ds ep h1 hf h3 hne).1 ((zerosFrom_sign neg ip).2 h6)
  rw [ht] at hs ⊢
  rw [parseNumber_eq, hs]
  simp only [R.bind_ok]
  rw [finishNumber_float (by
    have : (fp ++ ep).isEmpty = false := by rw [List.isEmpty_eq_false_iff]; exact h4
    simp [this])]
  have : (!fp.isEmpty && !(!fp.isEmpty && !ds.isEmpty)) = false := by
    cases hfp : fp.isEmpty
    · have : fp ≠ [] := by rw [← List.isEmpty_eq_false_iff]; exact hfp
      have := hds this
      rw [← List.isEmpty_eq_false_iff] at this
      simp [this]
    · simp
  simp only [this, Bool.false_eq_true, if_false]

/-- Floating point tokens are accepted when `strconv.ParseFloat` accepts them. -/
theorem floatTok_ok {E : Env} {neg : Bool} {ip fp ep text : Bytes} (h : FloatTok neg ip fp ep text) {f : BitVec 64} (hp : E.parseFloat text = some f) :
    NumTok E text ∧ numOf E text = floatNum E f := by
  have hne : sign neg ++ ip ≠ [] := by
    intro hh; simp at hh; have := h.2.2.2.2.1 hh.2; simp [sign, this.1] at hh
  obtain ⟨c, t, ht, hc, -⟩ := sign_start neg ip (fp ++ ep) h.1 hne
  have ht' : text = c :: t := by rw [h.2.2.2.2.2.2, ← ht]; simp
  have := floatTok_parse (E := E) h c t ht'
  simp only [floatResult, hp, R.bind_ok, R.pure_eq] at this
  exact ⟨⟨⟨c, t, ht', hc⟩, _, this⟩, by simp [numOf, this, floatNum]⟩

/-- the scan of an integer text -/
theorem int_scan (neg : Bool) (ip : Bytes) (hd : Digits ip) :
    (ZerosOK ip → numLoop [] {} (sign neg ++ ip) = .ok ({ negative := neg, integer := BitVec.ofNat 64 (decVal ip) }, sign neg ++ ip, [])) ∧
    (¬ ZerosOK ip → numLoop [] {} (sign neg ++ ip) = .err .other) := by
  have h := int_loop neg ip [] hd
  simp only [List.append_nil, zerosFrom_sign] at h
  exact ⟨fun hz => by rw [h.1 hz]; rfl, h.2⟩

theorem decVal_le (ds : Bytes) (hd : Digits ds) : decVal ds < 10 ^ ds.length := by
  have : ∀ n (ds : Bytes), Digits ds → ds.foldl (fun a c => 10 * a + (c.toNat - 0x30)) n < (n + 1) * 10 ^ ds.length := by
    intro n ds hd
    induction ds generalizing n with
    | nil => simp
    | cons c ds ih =>
      have hc : Digit c := hd c (by simp)
      have := ih (10 * n + (c.toNat - 0x30)) (fun x hx => hd x (by simp [hx]))
      simp only [List.foldl_cons, List.length_cons]
      refine Nat.lt_of_lt_of_le this ?_
      rw [Nat.pow_succ, Nat.mul_comm (10 ^ ds.length), ← Nat.mul_assoc]
      apply Nat.mul_le_mul_right
      unfold Digit at hc
      omega
  have := this 0 ds hd
  simpa [decVal] using this

theorem valFrom_mono (n : Nat) (ds : Bytes) : n ≤ valFrom n ds := by
  induction ds generalizing n with
  | nil => simp [valFrom]
  | cons c ds ih =>
    have := ih (10 * n + (c.toNat - 0x30))
    simp only [valFrom, List.foldl_cons] at this ⊢
    omega

theorem decVal_append (a b : Bytes) : decVal (a ++ b) = valFrom (decVal a) b := by simp [decVal, valFrom]

/-- digit strings of at most 20 digits without a leading zero cause no trouble -/
theorem zerosOK_of_lt {ip : Bytes} (hd : Digits ip) (hl : ip.length ≤ 20) (h0 : (∀ c u, ip ≠ 0x30 :: c :: u)) : ZerosOK ip := by
  intro p q hpq
  match p with
  | [] => exact .inr rfl
  | c :: p =>
    left
    have hdp : Digits (c :: p) := fun x hx => hd x (by rw [hpq]; simp [List.mem_append]; simp at hx; exact hx.elim .inl (fun h => .inr (.inl h)))
    have hlt := decVal_le (c :: p) hdp
    have hlen : (c :: p).length ≤ 19 := by rw [hpq] at hl; simp at hl ⊢; omega
    have h19 : 10 ^ (c :: p).length ≤ 10 ^ 19 := Nat.pow_le_pow_right (by omega) hlen
    have hc : c ≠ 0x30 := by
      intro hc
      subst hc
      match p with
      | [] => exact h0 0x30 q (by simp [hpq])
      | x :: p => exact h0 x (p ++ 0x30 :: q) (by simp [hpq])
    have hpos : 1 ≤ decVal (c :: p) := by
      have := valFrom_mono (c.toNat - 0x30) p
      have hcd := hdp c (by simp)
      have h1 := mt toNat_inj8.2 hc
      unfold Digit at hcd
      simp at h1
      simp [decVal, valFrom] at this ⊢
      omega
    rw [Nat.mod_eq_of_lt (by omega)]
    omega

theorem finishNumber_int {E : Env} {st : NumSt} {text : Bytes} {c : UInt8} (h : st.floated = false) :
    finishNumber E st text c = if st.integer > 0#64 ∧ c = 0x30 then .err .other
      else if text.length = 1 ∧ ¬ (isDigit c) then .err .other
      else intResult E st.negative text.length st.integer := by
  simp [finishNumber, h]

/-- the number read from an integer token -/
def intNum (E : Env) (neg : Bool) (n : Nat) : Num :=
  if neg then { negative := true, floated := false, i64 := BitVec.ofInt 64 (-n), u64 := BitVec.ofInt 64 (-n), f64 := fneg (E.u64ToF64 (BitVec.ofNat 64 n)) }
  else { negative := false, floated := false, i64 := BitVec.ofNat 64 n, u64 := BitVec.ofNat 64 n, f64 := E.u64ToF64 (BitVec.ofNat 64 n) }

theorem ofNat_gt_zero (n : Nat) : BitVec.ofNat 64 n > 0#64 ↔ n % 2 ^ 64 ≠ 0 := by
  show 0#64 < BitVec.ofNat 64 n ↔ _
  rw [BitVec.lt_def]
  simp
  omega

theorem intResult_spec (E : Env) (neg : Bool) (le n : Nat) : 
    intResult E neg le (BitVec.ofNat 64 n) =
      if (le ≤ 20 ∧ (le = 20 → if neg then n % 2 ^ 64 ≤ 2 ^ 63 else 10 ^ 19 ≤ n % 2 ^ 64)) then .ok (intNum E neg n) else .err .other := by
  unfold intResult negativeIntResult positiveIntResult intNum
  cases neg
  · simp only [Bool.false_eq_true, if_false]
    have hlt : BitVec.ofNat 64 n < 10000000000000000000#64 ↔ n % 2 ^ 64 < 10 ^ 19 := by
      rw [BitVec.lt_def]; simp
    by_cases h : le > 20
    · rw [if_pos h, if_neg (by omega)]
    · rw [if_neg h]
      by_cases h2 : le = 20 ∧ BitVec.ofNat 64 n < 10000000000000000000#64
      · rw [if_pos h2, if_neg]
        have := hlt.1 h2.2
        omega
      · rw [if_neg h2, if_pos]
        refine ⟨by omega, fun h3 => ?_⟩
        have := mt hlt.2 (fun h => h2 ⟨h3, h⟩)
        omega
  · simp only [if_true]
    have hlt : BitVec.ofNat 64 n > 9223372036854775808#64 ↔ n % 2 ^ 64 > 2 ^ 63 := by
      show _ < _ ↔ _
      rw [BitVec.lt_def]; simp
    by_cases h : le > 20
    · rw [if_pos h, if_neg (by omega)]
    · rw [if_neg h]
      by_cases h2 : le = 20 ∧ BitVec.ofNat 64 n > 9223372036854775808#64
      · rw [if_pos h2, if_neg]
        have := hlt.1 h2.2
        omega
      · rw [if_neg h2]
        rw [if_pos (c := le ≤ 20 ∧ _)]
        · have e : (if BitVec.ofNat 64 n = 9223372036854775808#64 then 9223372036854775808#64 else -BitVec.ofNat 64 n) = BitVec.ofInt 64 (-n) := by
            rw [BitVec.ofInt_neg]
            have : BitVec.ofInt 64 n = BitVec.ofNat 64 n := BitVec.ofInt_natCast 64 n
            rw [this]
            split
            · rename_i h; rw [h]; decide
            · rfl
          rw [e]
        · refine ⟨by omega, fun h3 => ?_⟩
          have := mt hlt.2 (fun h => h2 ⟨h3, h⟩)
          omega

theorem digits_head_pos {c : UInt8} {u : Bytes} (hd : Digits (c :: u)) (hc : c ≠ 0x30) : 1 ≤ decVal (c :: u) := by
  have := valFrom_mono (c.toNat - 0x30) u
  have hcd := hd c (by simp)
  have h1 := mt toNat_inj8.2 hc
  unfold Digit at hcd
  simp at h1
  simp [decVal, valFrom] at this ⊢
  omega

theorem NumTok_of {E : Env} {c : UInt8} {t : Bytes} {st : NumSt} (hc : isNumStart c = true) (hs : numLoop [] {} (c :: t) = .ok (st, c :: t, [])) :
    (NumTok E (c :: t) ↔ ∃ n, finishNumber E st (c :: t) c = .ok n) ∧ (∀ n, finishNumber E st (c :: t) c = .ok n → numOf E (c :: t) = n) := by
  have hp : parseNumber E (c :: t) = (do let n ← finishNumber E st (c :: t) c; pure (n, c :: t, [])) := by
    rw [parseNumber_eq, hs]; rfl
  constructor
  · constructor
    · rintro ⟨-, n, hn⟩
      rw [hp] at hn
      match hf : finishNumber E st (c :: t) c with
      | .ok m => exact ⟨m, rfl⟩
      | .err e => simp [hf] at hn
      | .panic => simp [hf] at hn
      | .diverge => simp [hf] at hn
    · rintro ⟨n, hn⟩
      exact ⟨⟨c, t, rfl, hc⟩, n, by rw [hp, hn]; rfl⟩
  · intro n hn
    simp [numOf, hp, hn]

theorem not_NumTok_of {E : Env} {c : UInt8} {t : Bytes} {e : Err} (hs : numLoop [] {} (c :: t) = .err e) : ¬ NumTok E (c :: t) := by
  rintro ⟨-, n, hn⟩
  rw [parseNumber_eq, hs] at hn
  simp at hn

theorem ZerosOK_head {c : UInt8} {u : Bytes} (h : ZerosOK (0x30 :: c :: u)) : c ≠ 0x30 := by
  intro hc
  subst hc
  have := h [0x30] u rfl
  simp [decVal] at this

/-- Integer tokens, exactly. -/
theorem intTok_iff {E : Env} (neg : Bool) (ds : Bytes) (hd : Digits ds) :
    (NumTok E (sign neg ++ ds) ↔ IntTok neg ds) ∧ (IntTok neg ds → numOf E (sign neg ++ ds) = intNum E neg (decVal ds)) := by
  by_cases hne : sign neg ++ ds = []
  · constructor
    · constructor
      · rintro ⟨⟨c, t, h, -⟩, -⟩; rw [hne] at h; simp at h
      · intro h; simp at hne; exact absurd hne.2 h.2.1
    · intro h; simp at hne; exact absurd hne.2 h.2.1
  obtain ⟨c, t, ht, hc, hcn, hcp⟩ := sign_start neg ds [] hd hne
  rw [List.append_nil] at ht
  have hscan := int_scan neg ds hd
  -- leading zeros
  by_cases hz : ZerosOK ds
  case neg =>
    have h1 := hscan.2 hz
    rw [ht] at h1
    have hno : ¬ IntTok neg ds := by
      rintro ⟨-, g1, g2⟩
      apply hz
      cases neg
      · simp only [Bool.false_eq_true, if_false] at g2
        exact zerosOK_of_lt hd (by omega) g2.1
      · simp only [if_true] at g2
        match ds with
        | [] => intro p q h; simp at h
        | [x] => exact zerosOK_of_lt hd (by simp) (by simp)
        | x :: y :: u =>
          by_cases hx : x = 0x30
          · subst hx
            have hy : y ≠ 0x30 := fun h => g2.1 u (by rw [h])
            have := zerosOK_of_lt (ip := y :: u) (fun x hx => hd x (by simp [List.mem_cons] at hx ⊢; exact .inr hx)) (by have := g2.2; simp at this ⊢; omega) (by intro c v h; simp at h; exact hy h.1)
            intro p q hpq
            match p with
            | [] => exact .inr rfl
            | a :: p =>
              simp only [List.cons_append, List.cons.injEq] at hpq
              obtain ⟨rfl, hpq⟩ := hpq
              rcases this p q hpq with h | rfl
              · left
                have : decVal (0x30 :: p) = decVal p := by simp [decVal]
                rw [this]; exact h
              · simp at hpq; exact absurd hpq.1 hy
          · exact zerosOK_of_lt hd (by have := g2.2; simp at this ⊢; omega) (by intro c v h; simp at h; exact hx h.1)
    refine ⟨⟨fun h => ?_, fun h => absurd h hno⟩, fun h => absurd h hno⟩
    rw [ht] at h
    exact absurd h (not_NumTok_of h1)
  case pos =>
    have h1 := hscan.1 hz
    rw [ht] at h1
    obtain ⟨q1, q2⟩ := NumTok_of (E := E) hc h1
    rw [ht, q1]
    rw [finishNumber_int rfl] at q2 ⊢
    simp only [intResult_spec, ofNat_gt_zero] at q2 ⊢
    have hlen : (c :: t).length = (sign neg).length + ds.length := by rw [← ht]; simp
    have hlt := decVal_le ds hd
    -- rejected leading zero of a non-negative literal
    have hA : (decVal ds % 2 ^ 64 ≠ 0 ∧ c = 0x30 ∧ ds.length ≤ 20) → ¬ IntTok neg ds := by
      rintro ⟨g1, rfl, g3⟩ ⟨-, k1, k2⟩
      cases neg
      · obtain ⟨u, rfl⟩ := hcp rfl
        match u with
        | [] => simp [decVal] at g1
        | x :: u => simp only [Bool.false_eq_true, if_false] at k2; exact k2.1 x u rfl
      · exact absurd (hcn rfl) (by decide)
    have main : (¬ (decVal ds % 2 ^ 64 ≠ 0 ∧ c = 0x30)) → ¬ ((c :: t).length = 1 ∧ ¬ isDigit c = true) →
        (((c :: t).length ≤ 20 ∧ ((c :: t).length = 20 → if neg = true then decVal ds % 2 ^ 64 ≤ 2 ^ 63 else 10 ^ 19 ≤ decVal ds % 2 ^ 64)) ↔ IntTok neg ds) := by
      intro g1 g2
      unfold IntTok
      cases neg
      · obtain ⟨u, rfl⟩ := hcp rfl
        simp only [sign, Bool.false_eq_true, if_false, List.length_nil, Nat.zero_add] at hlen ⊢
        rw [hlen]
        constructor
        · rintro ⟨k1, k2⟩
          refine ⟨hd, by simp, ?_, ?_⟩
          · rintro x v hx
            simp only [List.cons.injEq] at hx
            obtain ⟨rfl, rfl⟩ := hx
            have hx30 := ZerosOK_head hz
            have hpos := digits_head_pos (c := x) (u := v) (fun y hy => hd y (by simp at hy ⊢; exact .inr hy)) hx30
            have e : decVal (0x30 :: x :: v) = decVal (x :: v) := by simp [decVal]
            have hlt2 := decVal_le (x :: v) (fun y hy => hd y (by simp at hy ⊢; exact .inr hy))
            have h19 : 10 ^ (x :: v).length ≤ 10 ^ 19 := Nat.pow_le_pow_right (by omega) (by simp at k1 ⊢; omega)
            apply g1
            rw [e, Nat.mod_eq_of_lt (by omega)]
            exact ⟨by omega, rfl⟩
          · by_cases h20 : (c :: u).length = 20
            · exact .inr ⟨h20, k2 h20⟩
            · exact .inl (by omega)
        · rintro ⟨-, -, -, k⟩
          rcases k with k | k
          · exact ⟨by omega, fun h => by omega⟩
          · exact ⟨by omega, fun _ => k.2⟩
      · simp only [sign, if_true, List.length_cons, List.length_nil, Nat.zero_add] at hlen ⊢
        rw [hlen]
        have hc' := hcn rfl
        subst hc'
        have hne : ds ≠ [] := by
          rintro rfl
          apply g2
          simp [sign] at ht
          rw [ht]
          decide
        constructor
        · rintro ⟨k1, k2⟩
          refine ⟨hd, hne, ?_, ?_⟩
          · rintro u rfl
            exact ZerosOK_head hz rfl
          · by_cases h20 : 1 + ds.length = 20
            · have h19 : 10 ^ ds.length ≤ 10 ^ 19 := Nat.pow_le_pow_right (by omega) (by omega)
              have := k2 h20
              rw [Nat.mod_eq_of_lt (by omega)] at this
              exact .inr ⟨by omega, this⟩
            · exact .inl (by omega)
        · rintro ⟨-, -, -, k⟩
          rcases k with k | k
          · exact ⟨by omega, fun h => by omega⟩
          · refine ⟨by omega, fun _ => ?_⟩
            rw [Nat.mod_eq_of_lt (by omega)]; exact k.2
    have hB : ((c :: t).length = 1 ∧ ¬ isDigit c = true) → ¬ IntTok neg ds := by
      rintro ⟨g1, g2⟩ ⟨-, k1, -⟩
      cases neg
      · obtain ⟨u, rfl⟩ := hcp rfl
        exact g2 ((numChar_facts c).1.2 (hd c (by simp)))
      · rw [hlen] at g1
        simp [sign] at g1
        exact k1 g1
    have hC : IntTok neg ds → ds.length ≤ 20 := by
      rintro ⟨-, -, k⟩
      cases neg <;> simp only [Bool.false_eq_true, if_true, if_false] at k <;> omega
    constructor
    · constructor
      · rintro ⟨n, hn⟩
        split at hn
        · simp at hn
        · rename_i g1
          split at hn
          · simp at hn
          · rename_i g2
            by_cases g3 : (c :: t).length ≤ 20 ∧ ((c :: t).length = 20 → if neg = true then decVal ds % 2 ^ 64 ≤ 2 ^ 63 else 10 ^ 19 ≤ decVal ds % 2 ^ 64)
            · exact (main g1 g2).1 g3
            · rw [if_neg g3] at hn; simp at hn
      · intro hI
        have g1 : ¬ (decVal ds % 2 ^ 64 ≠ 0 ∧ c = 0x30) := fun h => hA ⟨h.1, h.2, hC hI⟩ hI
        have g2 := fun h => hB h hI
        exact ⟨intNum E neg (decVal ds), by rw [if_neg g1, if_neg g2, if_pos ((main g1 g2).2 hI)]⟩
    · intro hI
      have g1 : ¬ (decVal ds % 2 ^ 64 ≠ 0 ∧ c = 0x30) := fun h => hA ⟨h.1, h.2, hC hI⟩ hI
      have g2 := fun h => hB h hI
      exact q2 _ (by rw [if_neg g1, if_neg g2, if_pos ((main g1 g2).2 hI)])

/-! every accepted token has one of the two shapes -/

theorem numStep_inv {pos : Nat} {st st' : NumSt} {b : UInt8} (h : numStep pos st b = .ok (some st')) (hi : st.exponentGot = true → st.floated = true) :
    st'.exponentGot = true → st'.floated = true := by
  unfold numStep at h
  repeat' split at h
  all_goals simp only [R.pure_eq, R.ok.injEq, Option.some.injEq, reduceCtorEq] at h
  all_goals first | (subst h; simp_all) | simp_all

theorem numStep_floated {pos : Nat} {st st' : NumSt} {b : UInt8} (h : numStep pos st b = .ok (some st')) (hf : st'.floated = false)
    (hi : st.exponentGot = true → st.floated = true) :
    st.floated = false ∧ (Digit b ∨ (b = 0x2D ∧ pos = 0)) := by
  have hd : (b = 0x30 ∨ isDigit19 b = true) ↔ Digit b := by
    rw [(numChar_facts b).2, toNat_inj8]
    show b.toNat = 48 ∨ _ ↔ _
    unfold Digit; omega
  rw [← hd]
  unfold numStep at h
  repeat' split at h
  all_goals simp only [R.pure_eq, R.ok.injEq, Option.some.injEq, reduceCtorEq] at h
  all_goals first | (subst h; simp_all) | simp_all

theorem numLoop_int_shape {acc s text : Bytes} {st st' : NumSt} (h : numLoop acc st s = .ok (st', text, [])) (hf : st'.floated = false)
    (hi : st.exponentGot = true → st.floated = true) :
    st.floated = false ∧ (Digits s ∨ (acc = [] ∧ ∃ ds, s = 0x2D :: ds ∧ Digits ds)) := by
  induction s generalizing acc st with
  | nil =>
    simp only [numLoop, R.ok.injEq, Prod.mk.injEq, and_true] at h
    exact ⟨by rw [h.1]; exact hf, .inl (by simp [Digits])⟩
  | cons b t ih =>
    simp only [numLoop] at h
    match hn : numStep acc.length st b with
    | .ok none => simp [hn] at h
    | .ok (some st1) =>
      simp only [hn, R.bind_ok] at h
      obtain ⟨h1, h2⟩ := ih h (numStep_inv hn hi)
      have h2' : Digits t := by
        rcases h2 with h2 | h2
        · exact h2
        · simp at h2
      obtain ⟨h3, h4⟩ := numStep_floated hn h1 hi
      refine ⟨h3, ?_⟩
      rcases h4 with h4 | ⟨h4, h5⟩
      · left; intro c hc; rcases List.mem_cons.1 hc with rfl | hc
        · exact h4
        · exact h2' c hc
      · right; exact ⟨by simpa using h5, t, by rw [h4], h2'⟩
    | .err e => simp [hn] at h
    | .panic => simp [hn] at h
    | .diverge => simp [hn] at h

/-- Number tokens, exactly: integers as `IntTok`, floats as `FloatTok` in the range of `strconv.ParseFloat`. -/
theorem numTok_iff {E : Env} (hpf : ∀ text, (∀ c ∈ text, NumChar c) → E.parseFloat text ≠ none → GoFloat text) (text : Bytes) :
    NumTok E text ↔ (∃ neg ds, text = sign neg ++ ds ∧ IntTok neg ds) ∨
      (∃ neg ip fp ep, FloatTok neg ip fp ep text ∧ E.parseFloat text ≠ none) := by
  constructor
  · intro h
    obtain ⟨⟨c, t, rfl, hc⟩, n, hn⟩ := id h
    rw [parseNumber_eq] at hn
    match hs : numLoop [] {} (c :: t) with
    | .ok (st, text', rest) =>
      simp only [hs, R.bind_ok] at hn
      match hf : finishNumber E st text' c with
      | .ok m =>
        simp only [hf, R.bind_ok, R.pure_eq, R.ok.injEq, Prod.mk.injEq] at hn
        obtain ⟨rfl, rfl, rfl⟩ := hn
        cases hfl : st.floated
        · left
          have hsh := (numLoop_int_shape hs hfl (by simp)).2
          rcases hsh with hsh | ⟨-, ds, he, hsh⟩
          · refine ⟨false, c :: t, by simp [sign], ?_⟩
            have := (intTok_iff (E := E) false (c :: t) hsh).1
            simp only [sign, Bool.false_eq_true, if_false, List.nil_append] at this
            exact this.1 h
          · refine ⟨true, ds, by simp [sign, he], ?_⟩
            have := (intTok_iff (E := E) true ds hsh).1
            simp only [sign, if_true] at this
            rw [he] at h
            exact this.1 h
        · right
          rw [finishNumber_float hfl] at hf
          split at hf
          · simp at hf
          · rename_i hdot
            have hpn : E.parseFloat (c :: t) ≠ none := by
              intro h; simp [floatResult, h] at hf
            obtain ⟨sg, ip, fp, ds, ep, he, hsg, hip, hfp, hep, hor⟩ := hpf _ (numLoop_chars hs) hpn
            have hc' := hc
            have hsg' : ∃ neg, sg = sign neg := by
              rcases hsg with rfl | rfl | rfl
              · exact ⟨false, rfl⟩
              · simp at he; rw [he.1] at hc'; exact absurd hc' (by decide)
              · exact ⟨true, rfl⟩
            obtain ⟨neg, rfl⟩ := hsg'
            have hne : sign neg ++ ip ≠ [] := by
              intro h0
              have h0' := List.append_eq_nil_iff.1 h0
              rw [h0'.1, h0'.2] at he
              rcases hor with h | h
              · exact h h0'.2
              · rcases hfp with hfp | hfp
                · exact h.1 hfp
                · rw [hfp.1] at he
                  simp at he
                  rw [he.1] at hc'
                  exact absurd hc' (by decide)
            have hscan := float_scan neg ip fp ds ep hip hfp hep hne
            rw [← he] at hscan
            by_cases hz : zerosFrom neg (sign neg).length 0 ip
            · obtain ⟨i, hi⟩ := hscan.1 hz
              rw [hs] at hi
              simp only [R.ok.injEq, Prod.mk.injEq, and_true] at hi
              subst hi
              simp only at hfl hdot
              have hne2 : fp ++ ep ≠ [] := by
                rw [← List.isEmpty_eq_false_iff]; simpa using hfl
              refine ⟨neg, ip, fp, ep, ⟨hip, ?_, hep, hne2, ?_, (zerosFrom_sign neg ip).1 hz, he⟩, hpn⟩
              · rcases hfp with hfp | ⟨hfp, hds⟩
                · exact .inl hfp
                · refine .inr ⟨ds, hfp, ?_, hds⟩
                  rintro rfl
                  rw [hfp] at hdot
                  simp at hdot
              · rintro rfl
                constructor
                · cases neg
                  · simp [sign] at hne
                  · rfl
                · rcases hor with h | h
                  · exact absurd rfl h
                  · exact h.1
            · have := hscan.2 hz
              rw [hs] at this; simp at this
      | .err e => simp [hf] at hn
      | .panic => simp [hf] at hn
      | .diverge => simp [hf] at hn
    | .err e => simp [hs] at hn
    | .panic => simp [hs] at hn
    | .diverge => simp [hs] at hn
  · rintro (⟨neg, ds, rfl, h⟩ | ⟨neg, ip, fp, ep, h, hp⟩)
    · exact (intTok_iff neg ds h.1).1.2 h
    · match hf : E.parseFloat text with
      | some f => exact (floatTok_ok h hf).1
      | none => exact absurd hf hp

end JV
