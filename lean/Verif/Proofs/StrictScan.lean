import Verif.Spec.Json
import Verif.Proofs.Escape
/-! A pushdown automaton that accepts every JSON text, used to show that some texts are not JSON. -/
namespace JV
open Spec

inductive Sc where
  | val | valOrEnd | after | key | keyOrEnd | colon | num | lit | str (k : Bool) | esc (k : Bool) | hex (k : Bool) (n : Nat) | bad
deriving DecidableEq

def scWs (c : UInt8) : Bool := c == 0x20 || c == 0x09 || c == 0x0A || c == 0x0D
def scNum (c : UInt8) : Bool := (0x30 ≤ c && c ≤ 0x39) || c == 0x2B || c == 0x2D || c == 0x2E || c == 0x65 || c == 0x45
def scLit (c : UInt8) : Bool := 0x61 ≤ c && c ≤ 0x7A

abbrev ScSt := Sc × List Bool

def scAfter (stk : List Bool) (c : UInt8) : ScSt :=
  if scWs c then (.after, stk)
  else if c = 0x2C then match stk with
    | true :: _ => (.key, stk)
    | false :: _ => (.val, stk)
    | [] => (.bad, stk)
  else if c = 0x5D then match stk with
    | false :: s => (.after, s)
    | _ => (.bad, stk)
  else if c = 0x7D then match stk with
    | true :: s => (.after, s)
    | _ => (.bad, stk)
  else (.bad, stk)

def scVal (self : Sc) (stk : List Bool) (c : UInt8) : ScSt :=
  if scWs c then (self, stk)
  else if c = 0x22 then (.str false, stk)
  else if c = 0x5B then (.valOrEnd, false :: stk)
  else if c = 0x7B then (.keyOrEnd, true :: stk)
  else if scNum c then (.num, stk)
  else if scLit c then (.lit, stk)
  else (.bad, stk)

def scStep : ScSt → UInt8 → ScSt
  | (.val, stk), c => scVal .val stk c
  | (.valOrEnd, stk), c => if c = 0x5D then scAfter stk c else scVal .valOrEnd stk c
  | (.after, stk), c => scAfter stk c
  | (.num, stk), c => if scNum c then (.num, stk) else scAfter stk c
  | (.lit, stk), c => if scLit c then (.lit, stk) else scAfter stk c
  | (.key, stk), c => if scWs c then (.key, stk) else if c = 0x22 then (.str true, stk) else (.bad, stk)
  | (.keyOrEnd, stk), c => if c = 0x7D then scAfter stk c else if scWs c then (.keyOrEnd, stk) else if c = 0x22 then (.str true, stk) else (.bad, stk)
  | (.colon, stk), c => if scWs c then (.colon, stk) else if c = 0x3A then (.val, stk) else (.bad, stk)
  | (.str k, stk), c => if c = 0x22 then (if k then .colon else .after, stk) else if c = 0x5C then (.esc k, stk) else if c < 0x20 then (.bad, stk) else (.str k, stk)
  | (.esc k, stk), c => if c = 0x75 then (.hex k 4, stk)
      else if c = 0x22 ∨ c = 0x5C ∨ c = 0x2F ∨ c = 0x62 ∨ c = 0x66 ∨ c = 0x6E ∨ c = 0x72 ∨ c = 0x74 then (.str k, stk) else (.bad, stk)
  | (.hex k n, stk), _ => if n ≤ 1 then (.str k, stk) else (.hex k (n - 1), stk)
  | (.bad, stk), _ => (.bad, stk)

def scRun (st : ScSt) (s : Bytes) : ScSt := s.foldl scStep st

theorem scRun_append (st : ScSt) (a b : Bytes) : scRun st (a ++ b) = scRun (scRun st a) b := by simp [scRun]
theorem scRun_cons (st : ScSt) (a : UInt8) (b : Bytes) : scRun st (a :: b) = scRun (scStep st a) b := rfl
theorem scRun_nil (st : ScSt) : scRun st [] = st := rfl

/-- a value has been read; what follows is treated as after a value -/
def ScDone (st : ScSt) (stk : List Bool) : Prop := st = (.after, stk) ∨ st = (.num, stk) ∨ st = (.lit, stk)

theorem done_step {st : ScSt} {stk : List Bool} (h : ScDone st stk) {c : UInt8} (h1 : scNum c = false) (h2 : scLit c = false) : scStep st c = scAfter stk c := by
  rcases h with rfl | rfl | rfl <;> simp [scStep, h1, h2]

theorem ws_facts : ∀ c : UInt8, scWs c = true → scNum c = false ∧ scLit c = false ∧ c ≠ 0x5D ∧ c ≠ 0x7D ∧ c ≠ 0x22 := by
  have : ∀ n, n < 256 → (let c := UInt8.ofNat n; scWs c = true → scNum c = false ∧ scLit c = false ∧ c ≠ 0x5D ∧ c ≠ 0x7D ∧ c ≠ 0x22) := by decide +kernel
  intro c; have := this c.toNat c.toNat_lt; simpa using this

theorem ws_sc {w : Bytes} (h : Ws w) : ∀ c ∈ w, scWs c = true := by
  intro c hc; rcases h c hc with rfl | rfl | rfl | rfl <;> rfl

theorem run_ws {self : Sc} (hs : self = .val ∨ self = .valOrEnd ∨ self = .after ∨ self = .key ∨ self = .keyOrEnd ∨ self = .colon) {w : Bytes} (h : Ws w) (stk : List Bool) :
    scRun (self, stk) w = (self, stk) := by
  induction w with
  | nil => rfl
  | cons c w ih =>
    have hc := ws_sc h c (by simp)
    have hf := ws_facts c hc
    rw [scRun_cons]
    have : scStep (self, stk) c = (self, stk) := by
      rcases hs with rfl | rfl | rfl | rfl | rfl | rfl <;> simp [scStep, scVal, scAfter, hc, hf]
    rw [this]; exact ih fun x hx => h x (by simp [hx])

theorem done_ws {st : ScSt} {stk : List Bool} (h : ScDone st stk) {w : Bytes} (hw : Ws w) : ScDone (scRun st w) stk := by
  cases w with
  | nil => exact h
  | cons c w =>
    have hc := ws_sc hw c (by simp)
    have hf := ws_facts c hc
    rw [scRun_cons, done_step h hf.1 hf.2.1]
    have : scAfter stk c = (.after, stk) := by simp [scAfter, hc]
    rw [this, run_ws (by simp) fun x hx => hw x (by simp [hx])]
    exact .inl rfl

theorem utf8_high {r : Nat} (h0 : 0x80 ≤ r) : ∀ c ∈ utf8 r, 0x80 ≤ c.toNat ∨ r ≥ 0x110000 := by
  intro c hc
  unfold utf8 at hc
  by_cases hr : r ≥ 0x110000
  · exact .inr hr
  left
  rw [if_neg (by omega)] at hc
  split at hc
  · simp only [List.mem_cons, List.not_mem_nil, or_false] at hc; rcases hc with rfl | rfl <;> rw [toNat_ofNat (by omega)] <;> omega
  split at hc
  · simp only [List.mem_cons, List.not_mem_nil, or_false] at hc; rcases hc with rfl | rfl | rfl <;> rw [toNat_ofNat (by omega)] <;> omega
  · simp only [List.mem_cons, List.not_mem_nil, or_false] at hc; rcases hc with rfl | rfl | rfl | rfl <;> rw [toNat_ofNat (by omega)] <;> omega

theorem str_chars (k : Bool) (stk : List Bool) : ∀ s : Bytes, (∀ c ∈ s, 0x20 ≤ c.toNat ∧ c ≠ 0x22 ∧ c ≠ 0x5C) → scRun (.str k, stk) s = (.str k, stk)
  | [], _ => rfl
  | c :: s, h => by
    obtain ⟨h1, h2, h3⟩ := h c (by simp)
    have : ¬ c < 0x20 := by rw [UInt8.lt_iff_toNat_lt]; have : (0x20 : UInt8).toNat = 0x20 := rfl; omega
    rw [scRun_cons, show scStep (.str k, stk) c = (.str k, stk) by simp [scStep, h2, h3, this]]
    exact str_chars k stk s fun x hx => h x (by simp [hx])

theorem run_uesc {e : Bytes} {u : Nat} (h : UEsc e u) (k : Bool) (stk : List Bool) : scRun (.str k, stk) e = (.str k, stk) := by
  obtain ⟨a, b, c, d, _, _, _, _, rfl, -⟩ := h
  simp [scRun, scStep]

theorem run_body {t d : Bytes} (h : StrBody t d) (k : Bool) (stk : List Bool) : scRun (.str k, stk) t = (.str k, stk) := by
  induction h with
  | nil => rfl
  | char r t d hr h0 h1 h2 _ ih =>
    rw [scRun_append, str_chars, ih]
    intro c hc
    by_cases hr8 : r < 0x80
    · rw [utf8_ascii hr8, List.mem_singleton] at hc
      subst hc
      have := toNat_ofNat (n := r) (by omega)
      refine ⟨by omega, ?_, ?_⟩ <;> intro h <;> have := congrArg UInt8.toNat h <;> simp_all
    · have := utf8_high (by omega) c hc
      have : 0x80 ≤ c.toNat := by rcases this with h | h; exact h; unfold Scalar at hr; omega
      refine ⟨by omega, ?_, ?_⟩ <;> rintro rfl <;> simp at this
  | esc c b t d he _ ih =>
    rw [scRun_cons, scRun_cons]
    have : scStep (scStep (.str k, stk) 0x5C) c = (.str k, stk) := by
      rcases he with ⟨rfl, -⟩ | ⟨rfl, -⟩ | ⟨rfl, -⟩ | ⟨rfl, -⟩ | ⟨rfl, -⟩ | ⟨rfl, -⟩ | ⟨rfl, -⟩ | ⟨rfl, -⟩ <;> simp [scStep]
    rw [this, ih]
  | uni e r t d he hr _ ih => rw [scRun_append, run_uesc he, ih]
  | pair e1 e2 hi lo t d h1 h2 _ _ _ _ _ ih => rw [scRun_append, scRun_append, run_uesc h1, run_uesc h2, ih]

theorem digit_num {c : UInt8} (h : Digit c) : scNum c = true := by
  unfold Digit at h
  have h1 : (0x30 : UInt8) ≤ c := by rw [UInt8.le_iff_toNat_le]; exact h.1
  have h2 : c ≤ (0x39 : UInt8) := by rw [UInt8.le_iff_toNat_le]; exact h.2
  simp [scNum, h1, h2]

theorem jnum_chars {t : Bytes} (h : JNum t) : t ≠ [] ∧ ∀ c ∈ t, scNum c = true := by
  have hip : ∀ {ip : Bytes}, IntPart ip → ip ≠ [] ∧ Digits ip := by
    intro ip h
    rcases h with rfl | ⟨d, ds, rfl, h1, h2, h3⟩
    · exact ⟨by simp, by intro c hc; simp at hc; subst hc; unfold Digit; decide⟩
    · refine ⟨by simp, ?_⟩
      intro c hc
      rcases List.mem_cons.1 hc with rfl | hc
      · exact ⟨by omega, h2⟩
      · exact h3 c hc
  have hsg : ∀ neg, ∀ c ∈ sign neg, scNum c = true := by intro neg c hc; cases neg <;> simp [sign] at hc; subst hc; rfl
  rcases h with ⟨neg, ip, h1, rfl⟩ | ⟨neg, ip, fp, ep, h1, h2, h3, h4, rfl⟩
  · refine ⟨by simp [(hip h1).1], ?_⟩
    intro c hc
    rcases List.mem_append.1 hc with hc | hc
    · exact hsg neg c hc
    · exact digit_num ((hip h1).2 c hc)
  · refine ⟨by simp [(hip h1).1], ?_⟩
    intro c hc
    simp only [List.mem_append] at hc
    rcases hc with ((hc | hc) | hc) | hc
    · exact hsg neg c hc
    · exact digit_num ((hip h1).2 c hc)
    · rcases h2 with rfl | ⟨ds, rfl, -, hd⟩
      · cases hc
      · rcases List.mem_cons.1 hc with rfl | hc
        · rfl
        · exact digit_num (hd c hc)
    · rcases h3 with rfl | ⟨e, sg, ds, rfl, he, hs, -, hd⟩
      · cases hc
      · simp only [List.cons_append, List.mem_cons, List.mem_append] at hc
        rcases hc with rfl | hc | hc
        · rcases he with rfl | rfl <;> rfl
        · rcases hs with rfl | rfl | rfl <;> simp at hc <;> subst hc <;> rfl
        · exact digit_num (hd c hc)

theorem run_num (stk : List Bool) : ∀ t : Bytes, (∀ c ∈ t, scNum c = true) → scRun (.num, stk) t = (.num, stk)
  | [], _ => rfl
  | c :: t, h => by
    rw [scRun_cons, show scStep (.num, stk) c = (.num, stk) by simp [scStep, h c]]
    exact run_num stk t fun x hx => h x (by simp [hx])

/-- from `val`, or after an opening bracket -/
def ValState (s : Sc) : Prop := s = .val ∨ s = .valOrEnd

theorem num_first : ∀ c : UInt8, scNum c = true → scWs c = false ∧ c ≠ 0x22 ∧ c ≠ 0x5B ∧ c ≠ 0x7B ∧ c ≠ 0x5D := by
  have : ∀ n, n < 256 → (let c := UInt8.ofNat n; scNum c = true → scWs c = false ∧ c ≠ 0x22 ∧ c ≠ 0x5B ∧ c ≠ 0x7B ∧ c ≠ 0x5D) := by decide +kernel
  intro c; have := this c.toNat c.toNat_lt; simpa using this

theorem run_str {t d : Bytes} (h : JStr t d) (stk : List Bool) : (∀ s, ValState s → scRun (s, stk) t = (.after, stk)) ∧
    (∀ s, s = .key ∨ s = .keyOrEnd → scRun (s, stk) t = (.colon, stk)) := by
  obtain ⟨body, rfl, hb⟩ := h
  constructor
  · intro s hs
    rw [List.cons_append, scRun_cons, show scStep (s, stk) 0x22 = (.str false, stk) by rcases hs with rfl | rfl <;> simp [scStep, scVal, scWs],
      scRun_append, run_body hb]
    rfl
  · intro s hs
    rw [List.cons_append, scRun_cons, show scStep (s, stk) 0x22 = (.str true, stk) by rcases hs with rfl | rfl <;> simp [scStep, scWs],
      scRun_append, run_body hb]
    rfl

def ValRuns (t : Bytes) (_ : J) : Prop := ∀ s stk, ValState s → ScDone (scRun (s, stk) t) stk
def ElemRuns (t : Bytes) (_ : List J) : Prop := ∀ s stk, ValState s → ScDone (scRun (s, false :: stk) t) (false :: stk)
def MemRuns (t : Bytes) (_ : List Mem) : Prop := ∀ s stk, s = .key ∨ s = .keyOrEnd → ScDone (scRun (s, true :: stk) t) (true :: stk)

theorem valState_any {s : Sc} (h : ValState s) : s = .val ∨ s = .valOrEnd ∨ s = .after ∨ s = .key ∨ s = .keyOrEnd ∨ s = .colon := by
  rcases h with rfl | rfl <;> simp

theorem run_lit {t : Bytes} {c : UInt8} (hc : scLit c = true) (hc2 : scWs c = false ∧ c ≠ 0x22 ∧ c ≠ 0x5B ∧ c ≠ 0x7B ∧ scNum c = false ∧ c ≠ 0x5D) (ht : ∀ x ∈ t, scLit x = true) {s : Sc} (hs : ValState s)
    (stk : List Bool) : ScDone (scRun (s, stk) (c :: t)) stk := by
  rw [scRun_cons, show scStep (s, stk) c = (.lit, stk) by rcases hs with rfl | rfl <;> simp [scStep, scVal, hc2, hc]]
  right; right
  induction t with
  | nil => rfl
  | cons x t ih =>
    rw [scRun_cons, show scStep (.lit, stk) x = (.lit, stk) by simp [scStep, ht x]]
    exact ih fun y hy => ht y (by simp [hy])

theorem jval_runs {t : Bytes} {j : J} (h : JVal t j) : ValRuns t j := by
  refine @JVal.rec (fun t j _ => ValRuns t j) (fun t js _ => ElemRuns t js) (fun t ms _ => MemRuns t ms)
    ?_ ?_ ?_ ?_ ?_ ?_ ?_ ?_ ?_ ?_ ?_ ?_ ?_ t j h
  · intro s stk hs; exact run_lit (by decide) (by decide) (by decide) hs stk
  · intro s stk hs; exact run_lit (by decide) (by decide) (by decide) hs stk
  · intro s stk hs; exact run_lit (by decide) (by decide) (by decide) hs stk
  · intro t ht s stk hs
    obtain ⟨h1, h2⟩ := jnum_chars ht
    cases t with
    | nil => exact absurd rfl h1
    | cons c t =>
      have hc := h2 c (by simp)
      have hf := num_first c hc
      rw [scRun_cons, show scStep (s, stk) c = (.num, stk) by rcases hs with rfl | rfl <;> simp [scStep, scVal, hc, hf]]
      rw [run_num stk t fun x hx => h2 x (by simp [hx])]
      exact .inr (.inl rfl)
  · intro t d ht s stk hs
    rw [(run_str ht stk).1 s hs]; exact .inl rfl
  · intro w hw s stk hs
    rw [List.cons_append, scRun_cons, show scStep (s, stk) 0x5B = (.valOrEnd, false :: stk) by rcases hs with rfl | rfl <;> simp [scStep, scVal, scWs],
      scRun_append, run_ws (by simp) hw]
    exact .inl rfl
  · intro t xs _ ih s stk hs
    rw [List.cons_append, scRun_cons, show scStep (s, stk) 0x5B = (.valOrEnd, false :: stk) by rcases hs with rfl | rfl <;> simp [scStep, scVal, scWs],
      scRun_append, scRun_cons, done_step (ih _ _ (.inr rfl)) (by decide) (by decide)]
    exact .inl rfl
  · intro w hw s stk hs
    rw [List.cons_append, scRun_cons, show scStep (s, stk) 0x7B = (.keyOrEnd, true :: stk) by rcases hs with rfl | rfl <;> simp [scStep, scVal, scWs],
      scRun_append, run_ws (by simp) hw]
    exact .inl rfl
  · intro t xs _ ih s stk hs
    rw [List.cons_append, scRun_cons, show scStep (s, stk) 0x7B = (.keyOrEnd, true :: stk) by rcases hs with rfl | rfl <;> simp [scStep, scVal, scWs],
      scRun_append, scRun_cons, done_step (ih _ _ (.inr rfl)) (by decide) (by decide)]
    exact .inl rfl
  · intro w1 t w2 v h1 _ h2 ih s stk hs
    rw [scRun_append, scRun_append, run_ws (valState_any hs) h1]
    exact done_ws (ih _ _ hs) h2
  · intro w1 t w2 ts v vs h1 _ h2 _ ih ihs s stk hs
    rw [scRun_append, scRun_append, scRun_append, run_ws (valState_any hs) h1, scRun_cons, done_step (done_ws (ih _ _ hs) h2) (by decide) (by decide)]
    exact ihs _ _ (.inl rfl)
  · intro w1 k w2 w3 t w4 d v h1 hk h2 h3 _ h4 ih s stk hs
    rw [scRun_append, scRun_append, scRun_append, run_ws (by rcases hs with rfl | rfl <;> simp) h1, (run_str hk _).2 s hs, run_ws (by simp) h2, scRun_cons, scRun_append, scRun_append]
    rw [show scStep (.colon, true :: stk) 0x3A = (.val, true :: stk) by rfl, run_ws (by simp) h3]
    exact done_ws (ih _ _ (.inl rfl)) h4
  · intro w1 k w2 w3 t w4 d ts v vs h1 hk h2 h3 _ h4 _ ih ihs s stk hs
    rw [scRun_append, scRun_append, scRun_append, run_ws (by rcases hs with rfl | rfl <;> simp) h1, (run_str hk _).2 s hs, run_ws (by simp) h2, scRun_cons, scRun_append, scRun_append, scRun_append]
    rw [show scStep (.colon, true :: stk) 0x3A = (.val, true :: stk) by rfl, run_ws (by simp) h3, scRun_cons,
      done_step (done_ws (ih _ _ (.inl rfl)) h4) (by decide) (by decide)]
    exact ihs _ _ (.inl rfl)

/-- the automaton accepts -/
def scAccepts (s : Bytes) : Bool := let st := scRun (.val, []) s; st = (.after, []) || st = (.num, []) || st = (.lit, [])

theorem jtext_scan {s : Bytes} {j : J} (h : JText s j) : scAccepts s = true := by
  obtain ⟨w1, t, w2, rfl, h1, h2, h3⟩ := h
  have := done_ws (jval_runs h2 .val [] (.inl rfl)) h3
  unfold scAccepts
  rw [scRun_append, scRun_append, run_ws (by simp) h1]
  rcases this with h | h | h <;> simp [h]

theorem not_json {s : Bytes} (h : scAccepts s = false) : ¬ ∃ j, JText s j := by
  rintro ⟨j, hj⟩; rw [jtext_scan hj] at h; cases h

end JV
