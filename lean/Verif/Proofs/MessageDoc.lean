import Verif.Proofs.MessageViable
import Verif.Proofs.Total
/-! The messages of Unmarshal on whole texts. -/
namespace JV
open Spec

theorem parseValueM_loop (E : Env) (f p : Nat) (c : UInt8) (t : Bytes) : parseValueM E f p c t =
    (if c = 0x7B then loopS E f (p + 1) t (.inr ({}, 0)) else if c = 0x5B then loopS E f (p + 1) t (.inl [])
     else do match ← parseScalarM E f p c t with
       | some r => pure r
       | none => .err (.badChar c p)) := rfl

theorem parseValueM_more {f g : Nat} (hfg : f ≤ g) (E : Env) (p : Nat) (c : UInt8) (t : Bytes) : More (parseValueM E f p c t) (parseValueM E g p c t) := by
  rw [parseValueM_loop, parseValueM_loop]
  split
  · exact loopS_more hfg ..
  · split
    · exact loopS_more hfg ..
    · exact (parseScalarM_more hfg ..).bind fun a => .inr rfl

/-- enough fuel gives what any fuel gives -/
theorem parseValueM_fuel {E : Env} {f g p : Nat} {c : UInt8} {t : Bytes} (hne : parseValueM E f p c t ≠ .diverge) (hg : t.length < g) :
    parseValueM E g p c t = parseValueM E f p c t := by
  have htot : parseValueM E g p c t ≠ .diverge := fun h => by
    have hf := parseValueM_forget E g p c t
    rw [h] at hf
    exact (parseValue_total E g c t hg).1 hf.symm
  rcases Nat.le_total f g with h | h
  · rcases parseValueM_more h E p c t with h1 | h1
    · exact absurd h1 hne
    · exact h1
  · rcases parseValueM_more h E p c t with h1 | h1
    · exact absurd h1 htot
    · exact h1.symm

theorem parseValueM_ok {E : Env} {f p q : Nat} {c : UInt8} {t r : Bytes} {v : V} (h : parseValueM E f p c t = .ok (v, q, r)) :
    (isNumStart c = true → NumEnd r) ∧ ∃ d, t = d ++ r ∧ q = p + 1 + d.length ∧ ∀ r', (isNumStart c = true → NumEnd r') → parseValueM E f p c (d ++ r') = .ok (v, q, r') := by
  rw [parseValueM_loop] at h
  split at h
  · rename_i h7
    refine ⟨fun hn => by rw [h7] at hn; exact absurd hn (by decide), ?_⟩
    obtain ⟨d, -, h1, h2, h3⟩ := loopS_ok h
    exact ⟨d, h1, h2, fun r' _ => by rw [parseValueM_loop, if_pos h7]; exact h3 r'⟩
  · rename_i h7
    split at h
    · rename_i h5
      refine ⟨fun hn => by rw [h5] at hn; exact absurd hn (by decide), ?_⟩
      obtain ⟨d, -, h1, h2, h3⟩ := loopS_ok h
      exact ⟨d, h1, h2, fun r' _ => by rw [parseValueM_loop, if_neg h7, if_pos h5]; exact h3 r'⟩
    · rename_i h5
      obtain ⟨x, g1, g2⟩ := bindM_ok h
      rcases x with _ | ⟨v1, p1, t1⟩
      · cases g2
      cases g2
      obtain ⟨h0, d, h1, h2, h3⟩ := parseScalarM_ok g1
      exact ⟨h0, d, h1, h2, fun r' hr => by rw [parseValueM_loop, if_neg h7, if_neg h5, h3 r' hr]; rfl⟩

theorem parseValueM_err {E : Env} {f p : Nat} {c : UInt8} {t : Bytes} {m : Msg} (hb : isBlank c = false) (h : parseValueM E f p c t = .err m) :
    Says (NumTok E) p (c :: t) m ∧ (∀ q, fault m = some q → ∃ d x u, c :: t = d ++ x :: u ∧ q = p + d.length ∧
      ∀ u', ∃ t', c :: t' = d ++ x :: u' ∧ parseValueM E f p c t' = .err m) ∧
    ∀ q, viable (p + 1 + t.length) m = some q → (q = p ∨ ∃ d u w F, t = d ++ u ∧ q = p + 1 + d.length ∧
      ∀ f, F ≤ f → ∃ x q', parseValueM E f p c (d ++ w) = .ok (x, q', [])) := by
  have loop : ∀ σ, Pend σ (p + 1) (p + 1) [] → loopS E f (p + 1) t σ = .err m → (∀ f t, parseValueM E f p c t = loopS E f (p + 1) t σ) →
    Says (NumTok E) p (c :: t) m ∧ (∀ q, fault m = some q → ∃ d x u, c :: t = d ++ x :: u ∧ q = p + d.length ∧
      ∀ u', ∃ t', c :: t' = d ++ x :: u' ∧ parseValueM E f p c t' = .err m) ∧
    ∀ q, viable (p + 1 + t.length) m = some q → (q = p ∨ ∃ d u w F, t = d ++ u ∧ q = p + 1 + d.length ∧
      ∀ f, F ≤ f → ∃ x q', parseValueM E f p c (d ++ w) = .ok (x, q', [])) := by
    intro σ hp h he
    obtain ⟨k1, k2⟩ := loopS_err hp h
    refine ⟨says_app (a := [c]) k1, fun q hq => ?_, fun q hq => ?_⟩
    · obtain ⟨d, x, u, rfl, l2, l3⟩ := k2 q hq
      exact ⟨c :: d, x, u, rfl, by rw [l2]; simp; omega, fun u' => ⟨d ++ x :: u', rfl, by rw [he]; exact l3 u'⟩⟩
    · obtain ⟨d, u, w, F, l1, l2, -, l4⟩ := loopS_viable hp h hq
      refine .inr ⟨d, u, w, F, l1, l2, fun f hf => ?_⟩
      obtain ⟨x, q', l5⟩ := l4 f hf []
      rw [List.append_nil] at l5
      exact ⟨x, q', by rw [he]; exact l5⟩
  rw [parseValueM_loop] at h
  split at h
  · rename_i h7
    exact loop _ (pend_new rfl rfl) h fun f t => by rw [parseValueM_loop, if_pos h7]
  · rename_i h7
    split at h
    · rename_i h5
      exact loop _ ⟨rfl, rfl⟩ h fun f t => by rw [parseValueM_loop, if_neg h7, if_pos h5]
    · rename_i h5
      have he : ∀ f t, parseValueM E f p c t = (do match ← parseScalarM E f p c t with
          | some r => pure r
          | none => .err (.badChar c p)) := fun f t => by rw [parseValueM_loop, if_neg h7, if_neg h5]
      rcases bindM_err h with h1 | ⟨x, h1, h2⟩
      · obtain ⟨k1, k2⟩ := parseScalarM_err h1
        refine ⟨k1, fun q hq => ?_, fun q hq => ?_⟩
        · obtain ⟨d, x, u, l1, l2, l3⟩ := k2 q hq
          refine ⟨d, x, u, l1, l2, fun u' => ?_⟩
          obtain ⟨t', l4, l5⟩ := l3 u'
          exact ⟨t', l4, by rw [he, l5]; rfl⟩
        · obtain ⟨rfl, h3⟩ := parseScalarM_viable h1 hq
          obtain ⟨d, u, w, F, l1, l2, -, l4⟩ := strLoopM_viable h3 hq
          refine .inr ⟨d, u, w, F, l1, l2, fun f hf => ?_⟩
          obtain ⟨x, q', l5⟩ := l4 f hf []
          rw [List.append_nil] at l5
          refine ⟨.str x, q', ?_⟩
          dsimp only at l5
          rw [he, scalar_quote, l5]
          rfl
      · rcases x with _ | x
        · cases h2
          obtain ⟨k1, k2⟩ := parseScalarM_none h1
          refine ⟨says_here ⟨rfl, notBlank_one.2 hb, ?_, t, rfl⟩, fun q hq => ?_, fun q hq => ?_⟩
          · rcases k1 with h | h | h
            · exact absurd h h5
            · exact absurd h h7
            · exact h
          · cases hq
            exact ⟨[], c, t, rfl, rfl, fun u' => ⟨u', rfl, by rw [he, k2]; rfl⟩⟩
          · cases hq
            exact .inl rfl
        · cases h2

/-- an accepted text -/
theorem unmarshalM_intro {E : Env} {b : Bytes} (hb : Blank b) {c : UInt8} (hc : isBlank c = false) {t r : Bytes} {f q : Nat} {v : V}
    (h : parseValueM E f b.length c t = .ok (v, q, r)) (hr : Blank r) : unmarshalM E (b ++ c :: t) = .ok v := by
  unfold unmarshalM unmarshalWithIterM
  rw [if_neg (by simp), skipM_app hb 0 (c :: t) (fun c' t' h => by cases h; exact hc)]
  dsimp only
  have := parseValueM_fuel (g := (b ++ c :: t).length + 1) (by rw [h]; intro h; cases h) (by simp; omega) (E := E) (f := f) (p := b.length) (c := c) (t := t)
  rw [Nat.zero_add, this, h]
  simp only [RM.bind_ok]
  have hs := skipM_app hr q [] (fun c t h => by cases h)
  rw [List.append_nil] at hs
  rw [hs]; rfl

theorem null_parses (E : Env) (f p : Nat) : parseValueM E f p 0x6E [0x75, 0x6C, 0x6C] = .ok (.null, p + 4, []) := by
  rw [parseValueM_loop, if_neg (by decide), if_neg (by decide), scalar_null]; rfl

theorem unmarshalM_null (E : Env) {b : Bytes} (hb : Blank b) : unmarshalM E (b ++ litNull) = .ok .null :=
  unmarshalM_intro hb (c := 0x6E) (t := [0x75, 0x6C, 0x6C]) (by decide) (null_parses E 0 b.length) (fun x hx => by cases hx)

theorem unmarshalM_err {E : Env} {s : Bytes} {m : Msg} (h : unmarshalM E s = .err m) :
    s = [] ∧ m = .nilParameter ∨ s ≠ [] ∧ Blank s ∧ m = .noSymbol ∨
    ∃ b c t, s = b ++ c :: t ∧ Blank b ∧ isBlank c = false ∧
      (parseValueM E (s.length + 1) b.length c t = .err m ∨
       ∃ v q r b2 x u, parseValueM E (s.length + 1) b.length c t = .ok (v, q, r) ∧ r = b2 ++ x :: u ∧ Blank b2 ∧ isBlank x = false ∧ m = .trailing (q + b2.length)) := by
  unfold unmarshalM at h
  split at h
  · rename_i h0
    cases h
    exact .inl ⟨List.eq_nil_of_length_eq_zero h0, rfl⟩
  · rename_i h0
    have h0 : s ≠ [] := fun h => h0 (by rw [h]; rfl)
    unfold unmarshalWithIterM at h
    rcases blank_cases s with hb | ⟨b, c, t, hs, hb, hc⟩
    · have hs := skipM_app hb 0 [] (fun c t h => by cases h)
      rw [List.append_nil] at hs
      rw [hs] at h
      cases h
      exact .inr (.inl ⟨h0, hb, rfl⟩)
    · refine .inr (.inr ⟨b, c, t, hs, hb, hc, ?_⟩)
      have hsk := skipM_app hb 0 (c :: t) (fun c' t' h => by cases h; exact hc)
      rw [← hs, Nat.zero_add] at hsk
      rw [hsk] at h
      dsimp only at h
      rcases bindM_err h with h1 | ⟨⟨v, q, r⟩, h1, h2⟩
      · exact .inl h1
      · right
        dsimp only at h2
        rcases blank_cases r with hr | ⟨b2, x, u, hr, hb2, hx⟩
        · have hs := skipM_app hr q [] (fun c t h => by cases h)
          rw [List.append_nil] at hs
          rw [hs] at h2
          cases h2
        · rw [hr, skipM_app hb2 q (x :: u) (fun c' t' h => by cases h; exact hx)] at h2
          cases h2
          exact ⟨v, q, r, b2, x, u, h1, hr, hb2, hx, rfl⟩

theorem unmarshalM_fails {E : Env} {b : Bytes} (hb : Blank b) {c : UInt8} (hc : isBlank c = false) {t : Bytes} {f : Nat} {m : Msg}
    (h : parseValueM E f b.length c t = .err m) : unmarshalM E (b ++ c :: t) = .err m := by
  unfold unmarshalM unmarshalWithIterM
  rw [if_neg (by simp), skipM_app hb 0 (c :: t) (fun c' t' h => by cases h; exact hc)]
  dsimp only
  have := parseValueM_fuel (g := (b ++ c :: t).length + 1) (by rw [h]; intro h; cases h) (by simp; omega) (E := E) (f := f) (p := b.length) (c := c) (t := t)
  rw [Nat.zero_add, this, h]
  rfl

theorem unmarshalM_trailing {E : Env} {b : Bytes} (hb : Blank b) {c : UInt8} (hc : isBlank c = false) {t b2 u : Bytes} {x : UInt8} {f q : Nat} {v : V}
    (h : parseValueM E f b.length c t = .ok (v, q, b2 ++ x :: u)) (hb2 : Blank b2) (hx : isBlank x = false) :
    unmarshalM E (b ++ c :: t) = .err (.trailing (q + b2.length)) := by
  unfold unmarshalM unmarshalWithIterM
  rw [if_neg (by simp), skipM_app hb 0 (c :: t) (fun c' t' h => by cases h; exact hc)]
  dsimp only
  have := parseValueM_fuel (g := (b ++ c :: t).length + 1) (by rw [h]; intro h; cases h) (by simp; omega) (E := E) (f := f) (p := b.length) (c := c) (t := t)
  rw [Nat.zero_add, this, h]
  simp only [RM.bind_ok]
  rw [skipM_app hb2 q (x :: u) (fun c' t' h => by cases h; exact hx)]

theorem blank_numEnd {b u : Bytes} {x : UInt8} (hb : Blank b) (h : NumEnd (b ++ x :: u)) : NumEnd b := by
  intro c t hc
  rw [hc] at h
  exact h c _ rfl

theorem textSays_of {N : Bytes → Prop} {s : Bytes} {m : Msg} (h : Says N 0 s m) : TextSays N s m := by
  cases m <;> first | exact h | (obtain ⟨a, b, -, hb⟩ := h; exact absurd hb (fun h => h))

theorem unmarshalM_says {E : Env} {s : Bytes} {m : Msg} (h : unmarshalM E s = .err m) : TextSays (NumTok E) s m := by
  rcases unmarshalM_err h with ⟨rfl, rfl⟩ | ⟨h1, h2, rfl⟩ | ⟨b, c, t, hs, hb, hc, h1 | ⟨v, q, r, b2, x, u, h1, h2, hb2, hx, rfl⟩⟩
  · exact rfl
  · exact ⟨h1, h2⟩
  · rw [hs]
    exact textSays_of (says_app' (by omega) (parseValueM_err hc h1).1)
  · obtain ⟨-, d, k1, k2, -⟩ := parseValueM_ok h1
    refine ⟨b ++ c :: (d ++ b2), x, u, by rw [hs, k1, h2]; simp, ?_, notBlank_one.2 hx⟩
    rw [k2]; simp; omega

theorem unmarshalM_local {E : Env} {s : Bytes} {m : Msg} {q : Nat} (h : unmarshalM E s = .err m) (hq : fault m = some q) :
    ∃ d x u, s = d ++ x :: u ∧ q = d.length ∧ ∀ u', unmarshalM E (d ++ x :: u') = .err m := by
  rcases unmarshalM_err h with ⟨rfl, rfl⟩ | ⟨-, -, rfl⟩ | ⟨b, c, t, hs, hb, hc, h1 | ⟨v, q', r, b2, x, u, h1, h2, hb2, hx, rfl⟩⟩
  · cases hq
  · cases hq
  · obtain ⟨d, x, u, k1, k2, k3⟩ := (parseValueM_err hc h1).2.1 q hq
    refine ⟨b ++ d, x, u, by rw [hs, k1]; simp, by rw [k2]; simp, fun u' => ?_⟩
    obtain ⟨t', k4, k5⟩ := k3 u'
    rw [List.append_assoc, ← k4]
    exact unmarshalM_fails hb hc k5
  · cases hq
    obtain ⟨k0, d, k1, k2, k3⟩ := parseValueM_ok h1
    refine ⟨b ++ c :: (d ++ b2), x, u, by rw [hs, k1, h2]; simp, by rw [k2]; simp; omega, fun u' => ?_⟩
    have := k3 (b2 ++ x :: u') (fun hn => by
      have h0 := k0 hn
      rw [h2] at h0
      have := numEnd_head (d := b2 ++ [x]) (r := u) (r' := u') (by simp) (by simpa using h0)
      simpa using this)
    have := unmarshalM_trailing hb hc this hb2 hx
    simpa using this

theorem unmarshalM_viable {E : Env} {s : Bytes} {m : Msg} {q : Nat} (h : unmarshalM E s = .err m) (hq : viable s.length m = some q) :
    ∃ d u w v, s = d ++ u ∧ q = d.length ∧ unmarshalM E (d ++ w) = .ok v ∧ (∀ p, m = .trailing p → w = []) := by
  rcases unmarshalM_err h with ⟨rfl, rfl⟩ | ⟨-, hb, rfl⟩ | ⟨b, c, t, hs, hb, hc, h1 | ⟨v, q', r, b2, x, u, h1, h2, hb2, hx, rfl⟩⟩
  · cases hq
    exact ⟨[], [], litNull, .null, rfl, rfl, unmarshalM_null E (fun x hx => by cases hx), fun p hp => by cases hp⟩
  · cases hq
    exact ⟨s, [], litNull, .null, by simp, rfl, unmarshalM_null E hb, fun p hp => by cases hp⟩
  · have hnt : ∀ p, m ≠ .trailing p := fun p hp => by
      subst hp
      obtain ⟨a, b, -, hb⟩ := (parseValueM_err hc h1).1
      exact hb
    have hl : s.length = b.length + 1 + t.length := by rw [hs]; simp; omega
    rw [hl] at hq
    rcases (parseValueM_err hc h1).2.2 q hq with rfl | ⟨d, u, w, F, k1, k2, k3⟩
    · exact ⟨b, c :: t, litNull, .null, hs, rfl, unmarshalM_null E hb, fun p hp => absurd hp (hnt p)⟩
    · obtain ⟨x, q', k4⟩ := k3 F (Nat.le_refl _)
      refine ⟨b ++ c :: d, u, w, x, by rw [hs, k1]; simp, by rw [k2]; simp; omega, ?_, fun p hp => absurd hp (hnt p)⟩
      have := unmarshalM_intro hb hc k4 (fun x hx => by cases hx)
      simpa using this
  · cases hq
    obtain ⟨k0, d, k1, k2, k3⟩ := parseValueM_ok h1
    refine ⟨b ++ c :: (d ++ b2), x :: u, [], v, by rw [hs, k1, h2]; simp, by rw [k2]; simp; omega, ?_, fun p hp => rfl⟩
    have := k3 b2 (fun hn => blank_numEnd hb2 (by rw [← h2]; exact k0 hn))
    have := unmarshalM_intro hb hc this hb2
    simpa using this

end JV
