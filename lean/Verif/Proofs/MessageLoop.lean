import Verif.Proofs.MessageErr
/-! The loops over arrays and objects as one loop, and what they accept not depending on what follows. -/
namespace JV
open Spec

/-- the state of a loop: the elements so far, or the members so far with the position of the key -/
abbrev LSt := List V ⊕ (OSt × Nat)

/-- what a loop does at a byte that is not blank -/
inductive LoopAct where
  | done (v : V)
  | stop (m : Msg)
  | skip (σ : LSt)
  | sub (σ0 : LSt) (K : V → LSt)
  | scal (K : V → LSt)
  | key (K : Bytes → LSt)

/-- the loops -/
def loopS (E : Env) (f p : Nat) (s : Bytes) : LSt → RM (V × Nat × Bytes)
  | .inl acc => arrLoopM E f p s acc
  | .inr (st, ks) => objLoopM E f p s st ks

def isScal (c : UInt8) : Bool := isNumStart c || c = 0x22 || c = 0x74 || c = 0x66 || c = 0x6E

def act (p : Nat) (c : UInt8) : LSt → LoopAct
  | .inl acc =>
    if c = 0x5D then .done (.arr acc)
    else if c = 0x2C then .skip (.inl acc)
    else if c = 0x7B then .sub (.inr ({}, 0)) fun v => .inl (acc ++ [v])
    else if c = 0x5B then .sub (.inl []) fun v => .inl (acc ++ [v])
    else if isScal c then .scal fun v => .inl (acc ++ [v])
    else .stop (.badChar c p)
  | .inr (st, ks) =>
    match st.key with
    | none =>
      if c = 0x7D then .done (.obj st.incr st.kvs none)
      else if c = 0x2C then .skip (.inr (st, ks))
      else if c = 0x3A then .stop (if st.colon then .dupColon ks else .noKey p)
      else if c = 0x22 then .key fun s => .inr ({ st with key := some s }, p + 1)
      else if c = 0x7B ∨ c = 0x5B ∨ isScal c then .stop (.noKey p)
      else .stop (.badChar c p)
    | some k =>
      if c = 0x7D ∨ c = 0x2C then .stop (.noValue k ks)
      else if c = 0x3A then if st.colon then .stop (.dupColon ks) else .skip (.inr ({ st with colon := true }, ks))
      else if ¬ (c = 0x7B ∨ c = 0x5B ∨ isScal c) then .stop (.badChar c p)
      else if !st.colon then .stop (if c = 0x22 then .noValue k ks else .noColon p)
      else if c = 0x7B then .sub (.inr ({}, 0)) fun v => .inr (setMember st k v, ks)
      else if c = 0x5B then .sub (.inl []) fun v => .inr (setMember st k v, ks)
      else .scal fun v => .inr (setMember st k v, ks)

def runAct (E : Env) (f p : Nat) (c : UInt8) (t : Bytes) : LoopAct → RM (V × Nat × Bytes)
  | .done v => .ok (v, p + 1, t)
  | .stop m => .err m
  | .skip σ => loopS E f (p + 1) t σ
  | .sub σ0 K => do
    let (v, p, t) ← loopS E f (p + 1) t σ0
    loopS E f p t (K v)
  | .scal K => do
    match ← parseScalarM E (f + 1) p c t with
    | some (v, p, t) => loopS E f p t (K v)
    | none => .err (.badChar c p)
  | .key K => do
    let (s, p, t) ← strLoopM (f + 1) (p + 1) t []
    loopS E f p t (K s)

def eofMsg : LSt → Msg
  | .inl _ => .noBracket
  | .inr _ => .noBrace

theorem loopS_nil (E : Env) (f p : Nat) {b : Bytes} (hb : Blank b) (σ : LSt) : loopS E (f + 1) p b σ = .err (eofMsg σ) := by
  have hs := skipM_app hb p [] (fun c t h => by cases h)
  rw [List.append_nil] at hs
  rcases σ with acc | ⟨st, ks⟩
  · show arrLoopM E (f + 1) p b acc = _
    rw [arrLoopM, hs]; rfl
  · show objLoopM E (f + 1) p b st ks = _
    rw [objLoopM, hs]; rfl

theorem isScal_false {E : Env} {f p : Nat} {c : UInt8} {t : Bytes} (h : ¬ isScal c = true) : parseScalarM E f p c t = .ok none := by
  unfold isScal at h
  simp only [Bool.or_eq_true, decide_eq_true_eq, not_or] at h
  obtain ⟨⟨⟨⟨h1, h2⟩, h3⟩, h4⟩, h5⟩ := h
  unfold parseScalarM
  rw [if_neg h1, if_neg h2, if_neg h3, if_neg h4, if_neg h5]; rfl

theorem scalar_quote (E : Env) (f p : Nat) (t : Bytes) : parseScalarM E f p 0x22 t =
    (do let (s, p, rest) ← strLoopM f (p + 1) t []; pure (some (.str s, p, rest))) := by
  unfold parseScalarM
  rw [if_neg (by decide), if_pos rfl]

theorem loopS_cons (E : Env) (f p : Nat) {b : Bytes} (hb : Blank b) {c : UInt8} (hc : isBlank c = false) (t : Bytes) (σ : LSt) :
    loopS E (f + 1) p (b ++ c :: t) σ = runAct E f (p + b.length) c t (act (p + b.length) c σ) := by
  have hs := skipM_app hb p (c :: t) (fun c' t' h => by cases h; exact hc)
  rcases σ with acc | ⟨st, ks⟩
  · show arrLoopM E (f + 1) p (b ++ c :: t) acc = _
    rw [arrLoopM, hs]
    unfold act
    dsimp only
    split
    · rfl
    · split
      · rfl
      · split
        · rfl
        · split
          · rfl
          · split
            · rfl
            · rename_i h
              rw [isScal_false h]; rfl
  · show objLoopM E (f + 1) p (b ++ c :: t) st ks = _
    rw [objLoopM, hs]
    unfold act
    dsimp only
    have hsc : isScal c = true ↔ isNumStart c ∨ c = 0x22 ∨ c = 0x74 ∨ c = 0x66 ∨ c = 0x6E := by
      unfold isScal
      simp only [Bool.or_eq_true, decide_eq_true_eq, or_assoc]
    cases hk : st.key with
    | none =>
      dsimp only
      by_cases h1 : c = 0x7D
      · simp only [if_pos h1]; rfl
      simp only [if_neg h1]
      by_cases h2 : c = 0x2C
      · simp only [if_pos h2]; rfl
      simp only [if_neg h2]
      by_cases h3 : c = 0x3A
      · simp only [if_pos h3]; cases st.colon <;> rfl
      simp only [if_neg h3]
      by_cases h4 : c = 0x22
      · simp only [if_pos h4]; rfl
      simp only [if_neg h4]
      by_cases h5 : c = 0x7B ∨ c = 0x5B ∨ isScal c = true
      · have h6 := h5
        rw [hsc] at h6
        simp only [h4, false_or] at h6
        rw [if_pos h5, if_pos h6]; rfl
      · have h6 := h5
        rw [hsc] at h6
        simp only [h4, false_or] at h6
        rw [if_neg h5, if_neg h6]; rfl
    | some k =>
      dsimp only
      by_cases h1 : c = 0x7D
      · simp only [h1, true_or, if_true]; rfl
      by_cases h2 : c = 0x2C
      · subst h2; rfl
      by_cases h3 : c = 0x3A
      · subst h3; cases h : st.colon <;> rfl
      simp only [h1, h2, h3, false_or, if_false]
      by_cases h4 : c = 0x22
      · subst h4
        cases hcol : st.colon
        · rfl
        · have : isScal 0x22 = true := by decide
          simp only [this, Bool.not_true, Bool.false_eq_true, if_false, if_true, or_true, not_true]
          rw [if_neg (by decide), if_neg (by decide)]
          unfold runAct
          dsimp only
          rw [scalar_quote]
          cases strLoopM (f + 1) (p + b.length + 1) t [] <;> rfl
      simp only [if_neg h4]
      by_cases h5 : c = 0x7B ∨ c = 0x5B ∨ isScal c = true
      · have h6 := h5
        rw [hsc] at h6
        simp only [h4, false_or] at h6
        rw [if_pos h6, if_neg (show ¬ ¬ (c = 0x7B ∨ c = 0x5B ∨ isScal c = true) from fun h => h h5)]
        cases hcol : st.colon
        · rfl
        · simp only [Bool.not_true, Bool.false_eq_true, if_false]
          split
          · rfl
          · split <;> rfl
      · have h6 := h5
        rw [hsc] at h6
        simp only [h4, false_or] at h6
        rw [if_neg h6, if_pos h5]; rfl

/-- every text is blank or has a first byte that is not -/
theorem blank_cases (s : Bytes) : Blank s ∨ ∃ b c t, s = b ++ c :: t ∧ Blank b ∧ isBlank c = false := by
  rcases hsk : skipBlanksM 0 s with ⟨q, u⟩
  obtain ⟨b, h1, h2, -, h4⟩ := skipM_inv hsk
  cases u with
  | nil => left; rw [h2, List.append_nil]; exact h1
  | cons c t => exact .inr ⟨b, c, t, h2, h1, h4 c t rfl⟩

/-- what is accepted does not depend on what follows -/
def Okd {α : Type} (g : Bytes → RM (α × Nat × Bytes)) (p : Nat) (s : Bytes) (v : α) (q : Nat) (r : Bytes) : Prop :=
  ∃ c, c ≠ [] ∧ s = c ++ r ∧ q = p + c.length ∧ ∀ r', g (c ++ r') = .ok (v, q, r')

theorem numEnd_head {d r r' : Bytes} (h : d ≠ []) (he : NumEnd (d ++ r)) : NumEnd (d ++ r') := by
  cases d with
  | nil => exact absurd rfl h
  | cons x d => intro c t hc; cases hc; exact he _ _ rfl

theorem loopS_ok {E : Env} {f p q : Nat} {s r : Bytes} {σ : LSt} {v : V} (h : loopS E f p s σ = .ok (v, q, r)) :
    Okd (fun s => loopS E f p s σ) p s v q r := by
  induction f generalizing p q s r σ v with
  | zero => rcases σ with acc | ⟨st, ks⟩ <;> simp [loopS, arrLoopM, objLoopM] at h
  | succ f ih =>
    rcases blank_cases s with hb | ⟨b, c, t, rfl, hb, hc⟩
    · rw [loopS_nil E f p hb] at h; cases h
    rw [loopS_cons E f p hb hc] at h
    unfold Okd
    have step : ∀ d, (∀ r', runAct E f (p + b.length) c (d ++ r') (act (p + b.length) c σ) = .ok (v, q, r')) →
        ∀ r', loopS E (f + 1) p (b ++ c :: d ++ r') σ = .ok (v, q, r') := fun d hd r' => by
      rw [List.append_assoc, List.cons_append, loopS_cons E f p hb hc, hd r']
    cases ha : act (p + b.length) c σ with
    | done w =>
      rw [ha] at h
      cases h
      exact ⟨b ++ [c], by simp, by simp, by simp [Nat.add_assoc], step [] fun r' => by rw [ha]; rfl⟩
    | stop m => rw [ha] at h; cases h
    | skip σ' =>
      rw [ha] at h
      obtain ⟨d, h1, rfl, h3, h4⟩ := ih h
      exact ⟨b ++ c :: d, by simp, by simp, by rw [h3]; simp; omega, step d fun r' => by rw [ha]; exact h4 r'⟩
    | sub σ0 K =>
      rw [ha] at h
      obtain ⟨⟨v1, p1, t1⟩, g1, g2⟩ := bindM_ok h
      obtain ⟨d1, -, rfl, h3, h4⟩ := ih g1
      obtain ⟨d2, -, rfl, k3, k4⟩ := ih g2
      refine ⟨b ++ c :: (d1 ++ d2), by simp, by simp, by rw [k3, h3]; simp; omega, step _ fun r' => ?_⟩
      rw [ha]
      have := h4 (d2 ++ r')
      dsimp only at this
      simp only [runAct, List.append_assoc, this, RM.bind_ok]
      exact k4 r'
    | scal K =>
      rw [ha] at h
      obtain ⟨x, g1, g2⟩ := bindM_ok h
      rcases x with _ | ⟨v1, p1, t1⟩
      · cases g2
      obtain ⟨h2, d1, rfl, h3, h4⟩ := parseScalarM_ok g1
      obtain ⟨d2, k1, rfl, k3, k4⟩ := ih g2
      refine ⟨b ++ c :: (d1 ++ d2), by simp, by simp, by rw [k3, h3]; simp; omega, step _ fun r' => ?_⟩
      rw [ha]
      simp only [runAct, List.append_assoc, h4 (d2 ++ r') (fun hn => numEnd_head k1 (h2 hn)), RM.bind_ok]
      exact k4 r'
    | key K =>
      rw [ha] at h
      obtain ⟨⟨v1, p1, t1⟩, g1, g2⟩ := bindM_ok h
      obtain ⟨d1, -, rfl, h3, h4⟩ := strLoopM_ok g1
      obtain ⟨d2, -, rfl, k3, k4⟩ := ih g2
      refine ⟨b ++ c :: (d1 ++ d2), by simp, by simp, by rw [k3, h3]; simp; omega, step _ fun r' => ?_⟩
      rw [ha]
      simp only [runAct, List.append_assoc, h4 (d2 ++ r'), RM.bind_ok]
      exact k4 r'

/-! ### more fuel -/

/-- with more fuel the same comes out, unless there was too little -/
def More {α : Type} (x y : RM α) : Prop := x = .diverge ∨ y = x

theorem More.bind {α β : Type} {x y : RM α} {k l : α → RM β} (h : More x y) (hk : ∀ a, More (k a) (l a)) : More (x >>= k) (y >>= l) := by
  rcases h with rfl | rfl
  · exact .inl rfl
  · cases y with
    | ok a => exact hk a
    | err m => exact .inr rfl
    | panic => exact .inr rfl
    | diverge => exact .inr rfl

theorem More.refl {α : Type} (x : RM α) : More x x := .inr rfl

theorem strLoopM_more {f g : Nat} (hfg : f ≤ g) (p : Nat) (s acc : Bytes) : More (strLoopM f p s acc) (strLoopM g p s acc) := by
  induction f generalizing g p s acc with
  | zero => exact .inl (by rw [strLoopM])
  | succ f ih =>
    obtain ⟨g, rfl⟩ : ∃ g', g = g' + 1 := ⟨g - 1, by omega⟩
    rcases s with _ | ⟨c, t⟩
    · exact .inr rfl
    · rw [strLoopM, strLoopM]
      refine (More.refl _).bind fun x => ?_
      rcases x with _ | ⟨bs, p, t⟩
      · exact .inr rfl
      · exact ih (by omega) ..

theorem parseScalarM_more {f g : Nat} (hfg : f ≤ g) (E : Env) (p : Nat) (c : UInt8) (t : Bytes) : More (parseScalarM E f p c t) (parseScalarM E g p c t) := by
  unfold parseScalarM
  split
  · exact .inr rfl
  · split
    · exact (strLoopM_more hfg ..).bind fun x => .inr rfl
    · exact .inr rfl

theorem loopS_more {f g : Nat} (hfg : f ≤ g) (E : Env) (p : Nat) (s : Bytes) (σ : LSt) : More (loopS E f p s σ) (loopS E g p s σ) := by
  induction f generalizing g p s σ with
  | zero => left; rcases σ with acc | ⟨st, ks⟩ <;> simp [loopS, arrLoopM, objLoopM]
  | succ f ih =>
    obtain ⟨g, rfl⟩ : ∃ g', g = g' + 1 := ⟨g - 1, by omega⟩
    have hfg' : f ≤ g := by omega
    rcases blank_cases s with hb | ⟨b, c, t, rfl, hb, hc⟩
    · rw [loopS_nil E f p hb, loopS_nil E g p hb]; exact .inr rfl
    rw [loopS_cons E f p hb hc, loopS_cons E g p hb hc]
    cases act (p + b.length) c σ with
    | done w => exact .inr rfl
    | stop m => exact .inr rfl
    | skip σ' => exact ih hfg' ..
    | sub σ0 K => exact (ih hfg' ..).bind fun a => ih hfg' ..
    | scal K =>
      refine (parseScalarM_more hfg ..).bind fun a => ?_
      rcases a with _ | ⟨v, p, t⟩
      · exact .inr rfl
      · exact ih hfg' ..
    | key K => exact (strLoopM_more hfg ..).bind fun a => ih hfg' ..

end JV
