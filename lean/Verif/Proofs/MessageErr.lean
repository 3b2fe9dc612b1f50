import Verif.Proofs.MessageNum
/-! What the messages say, and that those which point at a byte depend on nothing behind it. -/
namespace JV
open Spec

theorem says_app {N : Bytes → Prop} {p : Nat} {a r : Bytes} {m : Msg} (h : Says N (p + a.length) r m) : Says N p (a ++ r) m := by
  obtain ⟨x, b, rfl, hb⟩ := h
  exact ⟨a ++ x, b, by simp, by rw [List.length_append, ← Nat.add_assoc]; exact hb⟩

theorem says_app' {N : Bytes → Prop} {p q : Nat} {a r : Bytes} {m : Msg} (hq : q = p + a.length) (h : Says N q r m) : Says N p (a ++ r) m := by
  subst hq; exact says_app h

theorem says_here {N : Bytes → Prop} {p : Nat} {s : Bytes} {m : Msg} (h : MsgHolds N p s m) : Says N p s m := ⟨[], s, rfl, h⟩

/-- `g` fails with `m` on `s`, and if `m` points at a byte then on every text that is the same up to there -/
def Local (g : Bytes → RM α) (p : Nat) (s : Bytes) (m : Msg) : Prop :=
  ∀ q, fault m = some q → ∃ d x u, s = d ++ x :: u ∧ q = p + d.length ∧ ∀ u', g (d ++ x :: u') = .err m

theorem local_none {α : Type} {g : Bytes → RM α} {p : Nat} {s : Bytes} {m : Msg} (h : fault m = none) : Local g p s m := fun q hq => by rw [h] at hq; cases hq

theorem hex4M_err {a b c d : UInt8} {m : Msg} (h : hex4M a b c d = .err m) :
    ∃ x h1 h2, m = .badHex x ∧ [a, b, c, d] = h1 ++ x :: h2 ∧ (∀ y ∈ h2, ∃ n, Hex y n) ∧ ∀ n, ¬ Hex x n := by
  have no : ∀ {x}, chrToHex x = none → ∀ n, ¬ Hex x n := fun hx n hn => by rw [(chrToHex_iff _ n).2 hn] at hx; cases hx
  have yes : ∀ {x k}, chrToHex x = some k → ∃ n, Hex x n := fun {x k} hx => ⟨k, (chrToHex_iff _ k).1 hx⟩
  unfold hex4M at h
  cases hd : chrToHex d with
  | none =>
    refine ⟨d, [a, b, c], [], ?_, rfl, by simp, no hd⟩
    cases ha : chrToHex a <;> cases hb : chrToHex b <;> cases hc : chrToHex c <;> simp only [ha, hb, hc, hd] at h <;> cases h <;> rfl
  | some x0 =>
    cases hc : chrToHex c with
    | none =>
      refine ⟨c, [a, b], [d], ?_, rfl, by simpa using yes hd, no hc⟩
      cases ha : chrToHex a <;> cases hb : chrToHex b <;> simp only [ha, hb, hc, hd] at h <;> cases h <;> rfl
    | some x1 =>
      cases hb : chrToHex b with
      | none =>
        refine ⟨b, [a], [c, d], ?_, rfl, by simpa using ⟨yes hc, yes hd⟩, no hb⟩
        cases ha : chrToHex a <;> simp only [ha, hb, hc, hd] at h <;> cases h <;> rfl
      | some x2 =>
        cases ha : chrToHex a with
        | none =>
          refine ⟨a, [], [b, c, d], ?_, rfl, by simpa using ⟨yes hb, yes hc, yes hd⟩, no ha⟩
          simp only [ha, hb, hc, hd] at h; cases h; rfl
        | some x3 => simp only [ha, hb, hc, hd] at h; cases h

theorem hex4_parts {a b c d x : UInt8} {h1 h2 : Bytes} (h : [a, b, c, d] = h1 ++ x :: h2) : h1.length + h2.length = 3 := by
  have := congrArg List.length h
  simp at this
  omega

theorem hex4M_esc {a b c d : UInt8} {r : Nat} (h : hex4M a b c d = .ok r) : UEsc [0x5C, 0x75, a, b, c, d] r := by
  have := hex4M_forget a b c d
  rw [h] at this
  exact (hex4_iff a b c d r).1 this.symm

theorem escUnicodeM_err {N : Bytes → Prop} {p : Nat} {s : Bytes} {m : Msg} (h : escUnicodeM p s = .err m) :
    Says N p (0x5C :: 0x75 :: s) m ∧ fault m = none ∧ ∀ n, viable n m = none := by
  rcases s with _ | ⟨a, _ | ⟨b, _ | ⟨c, _ | ⟨d, _ | ⟨x, t⟩⟩⟩⟩⟩
  case cons.cons.cons.cons.cons =>
    rw [escUnicodeM] at h
    rcases bindM_err h with h1 | ⟨u, h1, h2⟩
    · obtain ⟨z, l1, l2, rfl, g1, g2, g3⟩ := hex4M_err h1
      exact ⟨says_here ⟨g3, l1, l2, x :: t, by rw [← g1]; rfl, hex4_parts g1, g2⟩, rfl, fun _ => rfl⟩
    · clear h
      have hu := hex4M_esc h1
      split at h2
      · cases h2
      · rename_i hr
        have hsurr : Surr u := ⟨by omega, by omega⟩
        rcases t with _ | ⟨q', _ | ⟨a', _ | ⟨b', _ | ⟨c', _ | ⟨d', _ | ⟨y, t⟩⟩⟩⟩⟩⟩
        case cons.cons.cons.cons.cons.cons =>
          dsimp only at h2
          split at h2
          · rename_i hx
            cases h2
            exact ⟨says_here ⟨rfl, _, u, x, q', a' :: b' :: c' :: d' :: y :: t, rfl, hu, hsurr, fun h => hx h.1⟩, rfl, fun _ => rfl⟩
          · rename_i hx
            split at h2
            · rename_i hq
              cases h2
              exact ⟨says_here ⟨rfl, _, u, x, q', a' :: b' :: c' :: d' :: y :: t, rfl, hu, hsurr, fun h => hq h.2⟩, rfl, fun _ => rfl⟩
            · rename_i hq
              have hx0 : x = 0x5C := by simpa using hx
              have hq0 : q' = 0x75 := by simpa using hq
              subst hx0 hq0
              rcases bindM_err h2 with h3 | ⟨ex, h3, h4⟩
              · obtain ⟨z, l1, l2, rfl, g1, g2, g3⟩ := hex4M_err h3
                refine ⟨says_app (a := [0x5C, 0x75, a, b, c, d]) (says_here ⟨g3, l1, l2, y :: t, by rw [← g1]; rfl, hex4_parts g1, g2⟩), rfl, fun _ => rfl⟩
              · rcases bindM_err h4 with h5 | ⟨w, h5, h6⟩
                · obtain ⟨rfl, e, he⟩ := withMsg_err h5
                  exact ⟨says_here ⟨rfl, _, _, ex, y :: t, rfl, hu, hex4M_esc h3, hsurr, (surrogatePair_err he).2⟩, rfl, fun _ => rfl⟩
                · cases h6
        all_goals
          cases h2
          exact ⟨says_here ⟨rfl, _, u, _, rfl, hu, hsurr, by simp⟩, rfl, fun _ => rfl⟩
  all_goals
    cases h
    exact ⟨says_here (.inr ⟨_, rfl, by simp⟩), rfl, fun _ => rfl⟩

theorem leadLen_zero {c : UInt8} (h2 : ¬ lead2 c = true) (h3 : ¬ lead3 c = true) (h4 : ¬ lead4 c = true) : leadLen c = 0 := by
  obtain ⟨l2, l3, l4, -⟩ := lead_facts c
  have n2 : leadLen c ≠ 2 := fun hh => h2 (l2.2 hh)
  have n3 : leadLen c ≠ 3 := fun hh => h3 (l3.2 hh)
  have n4 : leadLen c ≠ 4 := fun hh => h4 (l4.2 hh)
  unfold leadLen at *
  split <;> rename_i q
  · simp [q] at n2
  · split <;> rename_i q'
    · simp [q, q'] at n3
    · split <;> rename_i q''
      · simp [q, q', q''] at n4
      · rfl

theorem strStepM_err {N : Bytes → Prop} {p : Nat} {c : UInt8} {t : Bytes} {m : Msg} (h : strStepM p c t = .err m) :
    Says N p (c :: t) m ∧ (∀ q, fault m = some q → q = p ∧ ∀ t', strStepM p c t' = .err m) ∧ ∀ n q, viable n m = some q → q = p := by
  have sh : ∀ n, leadLen c = n → (do return some (← shiftM p (c :: t) n) : RM (Option (Bytes × Nat × Bytes))) = .err m →
      Says N p (c :: t) m ∧ (∀ q, fault m = some q → q = p ∧ ∀ t', strStepM p c t' = .err m) ∧ ∀ n q, viable n m = some q → q = p := by
    intro n hn h
    rcases bindM_err h with h1 | ⟨x, h1, h2⟩
    · unfold shiftM at h1
      split at h1
      · rename_i hl
        cases h1
        exact ⟨says_here ⟨rfl, c, t, rfl, hn, rfl, hl⟩, (fun q hq => by cases hq), fun n q hq => by cases hq⟩
      · cases h1
    · cases h2
  obtain ⟨l2, l3, l4, -⟩ := lead_facts c
  by_cases h5c : c = 0x5C
  · subst h5c
    unfold strStepM at h
    rw [if_pos rfl] at h
    rcases t with _ | ⟨e, t⟩
    · cases h
      exact ⟨says_here (.inl rfl), (fun q hq => by cases hq), fun n q hq => by cases hq⟩
    · dsimp only at h
      cases he : simpleEsc e with
      | some b => rw [he] at h; cases h
      | none =>
        rw [he] at h
        dsimp only at h
        split at h
        · rename_i h75
          subst h75
          rcases bindM_err h with h1 | ⟨x, h1, h2⟩
          · obtain ⟨g1, g2, g3⟩ := escUnicodeM_err h1 (N := N)
            exact ⟨g1, (fun q hq => by rw [g2] at hq; cases hq), fun n q hq => by rw [g3] at hq; cases hq⟩
          · cases h2
        · rename_i h75
          cases h
          refine ⟨says_here ⟨t, rfl, h75, fun h27 => ?_, fun x hx => ?_⟩, (fun q hq => by cases hq), fun n q hq => by cases hq⟩
          · rw [(simpleEsc_iff e 0x27).2 (.inr ⟨h27, rfl⟩)] at he; cases he
          · rw [(simpleEsc_iff e x).2 (.inl hx)] at he; cases he
  · have hall : ∀ t', strStepM p c t' = (if c = 0x22 then pure none
        else if c ≤ 0x7F then pure (some ([c], p + 1, t'))
        else if lead2 c then do return some (← shiftM p (c :: t') 2)
        else if lead3 c then do return some (← shiftM p (c :: t') 3)
        else if lead4 c then do return some (← shiftM p (c :: t') 4)
        else .err (.badUTF8 p)) := fun t' => by unfold strStepM; rw [if_neg h5c]
    rw [hall] at h
    split at h
    · cases h
    · rename_i h22
      split at h
      · cases h
      · rename_i h7f
        split at h
        · rename_i g; exact sh 2 (l2.1 g) h
        · rename_i g2
          split at h
          · rename_i g; exact sh 3 (l3.1 g) h
          · rename_i g3
            split at h
            · rename_i g; exact sh 4 (l4.1 g) h
            · rename_i g4
              cases h
              have h80 : 0x80 ≤ c.toNat := by
                have : ¬ c.toNat ≤ 0x7F := h7f
                omega
              refine ⟨says_here ⟨rfl, c, t, rfl, h80, leadLen_zero g2 g3 g4⟩, fun q hq => ?_, fun n q hq => by cases hq; rfl⟩
              cases hq
              exact ⟨rfl, fun t' => by rw [hall, if_neg h22, if_neg h7f, if_neg g2, if_neg g3, if_neg g4]⟩

theorem strLoopM_err {N : Bytes → Prop} {f p : Nat} {s acc : Bytes} {m : Msg} (h : strLoopM f p s acc = .err m) :
    Says N p s m ∧ Local (fun s => strLoopM f p s acc) p s m := by
  induction f generalizing p s acc with
  | zero => cases h
  | succ f ih =>
    rcases s with _ | ⟨c, t⟩
    · cases h
      exact ⟨says_here (N := N) (m := .noQuote) trivial, local_none rfl⟩
    · rw [strLoopM] at h
      rcases bindM_err h with h1 | ⟨x, h1, hx⟩
      · obtain ⟨g1, g2, -⟩ := strStepM_err h1 (N := N)
        refine ⟨g1, fun q hq => ?_⟩
        obtain ⟨rfl, g3⟩ := g2 q hq
        refine ⟨[], c, t, rfl, rfl, fun u' => ?_⟩
        show strLoopM (f + 1) q (c :: u') acc = _
        rw [strLoopM, g3]; rfl
      · clear h
        rcases x with _ | ⟨bs1, p1, t1⟩
        · cases hx
        · dsimp only at hx
          obtain ⟨d, rfl, h2, h3⟩ := strStepM_ok h1
          obtain ⟨g1, g2⟩ := ih hx
          refine ⟨says_app' (a := c :: d) (by rw [h2, List.length_cons]; omega) g1, fun q hq => ?_⟩
          obtain ⟨e, x, u, rfl, k2, k3⟩ := g2 q hq
          refine ⟨c :: (d ++ e), x, u, by simp, by rw [k2, h2]; simp; omega, fun u' => ?_⟩
          show strLoopM (f + 1) p (c :: (d ++ e) ++ x :: u') acc = _
          rw [List.cons_append, List.append_assoc, strLoopM, h3 (e ++ x :: u') (by simp)]
          exact k3 u'

theorem parseLitM_err {p : Nat} {s lit : Bytes} {a b m : Msg} (h : parseLitM p s lit a b = .err m) :
    s.length < lit.length ∧ m = a ∨ (∀ r, s ≠ lit ++ r) ∧ m = b := by
  unfold parseLitM at h
  split at h
  · rename_i hl; cases h; exact .inl ⟨hl, rfl⟩
  · split at h
    · cases h
    · rename_i hl hn
      cases h
      exact .inr ⟨fun r hr => hn (by rw [hr]; simp), rfl⟩

theorem parseScalarM_ok {E : Env} {f p q : Nat} {c : UInt8} {t r : Bytes} {v : V} (h : parseScalarM E f p c t = .ok (some (v, q, r))) :
    (isNumStart c = true → NumEnd r) ∧ ∃ d, t = d ++ r ∧ q = p + 1 + d.length ∧ ∀ r', (isNumStart c = true → NumEnd r') → parseScalarM E f p c (d ++ r') = .ok (some (v, q, r')) := by
  unfold parseScalarM at h ⊢
  by_cases hn : isNumStart c = true
  · simp only [if_pos hn] at h ⊢
    obtain ⟨⟨n, text, q', rest⟩, h1, hx⟩ := bindM_ok h
    simp only [RM.pure_eq, RM.ok.injEq, Option.some.injEq, Prod.mk.injEq] at hx
    obtain ⟨rfl, rfl, rfl⟩ := hx
    obtain ⟨g0, g1, g2, g3⟩ := parseNumberM_ok h1
    have hnum : parseNumber E (c :: t) = .ok (n, text, rest) := by
      have := parseNumberM_forget E p (c :: t)
      rw [h1] at this
      exact this.symm
    obtain ⟨-, -, ⟨⟨c', u, rfl, -⟩, -⟩, -⟩ := parseNumber_split hn hnum
    simp only [List.cons_append, List.cons.injEq] at g1
    obtain ⟨rfl, rfl⟩ := g1
    refine ⟨fun _ => g0, u, rfl, by rw [g2, List.length_cons]; omega, fun r' hr => ?_⟩
    have := g3 r' (hr hn) (by simp)
    rw [List.cons_append] at this
    rw [this]; rfl
  · refine ⟨fun h => absurd h hn, ?_⟩
    simp only [if_neg hn] at h ⊢
    have lit : ∀ {lit : Bytes} {a b : Msg} {w : V}, (do let (p, rest) ← parseLitM p (c :: t) lit a b; pure (some (w, p, rest)) : RM (Option (V × Nat × Bytes))) = .ok (some (v, q, r)) →
        lit ≠ [] → ∃ d, t = d ++ r ∧ q = p + 1 + d.length ∧ ∀ r', (isNumStart c = true → NumEnd r') →
          (do let (p, rest) ← parseLitM p (c :: (d ++ r')) lit a b; pure (some (w, p, rest)) : RM (Option (V × Nat × Bytes))) = .ok (some (v, q, r')) := by
      intro lit a b w h hne
      obtain ⟨⟨q', rest⟩, h1, hx⟩ := bindM_ok h
      cases hx
      obtain ⟨g1, g2, g3⟩ := parseLitM_ok h1
      rcases lit with _ | ⟨l, ls⟩
      · exact absurd rfl hne
      · simp only [List.cons_append, List.cons.injEq] at g1
        obtain ⟨rfl, rfl⟩ := g1
        refine ⟨ls, rfl, by rw [g2, List.length_cons]; omega, fun r' _ => ?_⟩
        have := g3 r'
        rw [List.cons_append] at this
        rw [this]; rfl
    split at h
    · rename_i h22
      simp only [if_pos h22]
      obtain ⟨⟨s, q', rest⟩, h1, hx⟩ := bindM_ok h
      cases hx
      obtain ⟨d, -, rfl, g2, g3⟩ := strLoopM_ok h1
      refine ⟨d, rfl, g2, fun r' _ => ?_⟩
      rw [g3 r']; rfl
    · rename_i h22
      simp only [if_neg h22]
      split at h
      · rename_i ht
        simp only [if_pos ht]
        exact lit h (by decide)
      · rename_i ht
        simp only [if_neg ht]
        split at h
        · rename_i hf
          simp only [if_pos hf]
          exact lit h (by decide)
        · rename_i hf
          simp only [if_neg hf]
          split at h
          · rename_i hn
            simp only [if_pos hn]
            exact lit h (by decide)
          · cases h

theorem parseScalarM_none {E : Env} {f p : Nat} {c : UInt8} {t : Bytes} (h : parseScalarM E f p c t = .ok none) :
    (c = 0x5B ∨ c = 0x7B ∨ ¬ ValStart c) ∧ ∀ f' p' t', parseScalarM E f' p' c t' = .ok none := by
  have := parseScalarM_forget E f p c t
  rw [h] at this
  have hc := parseScalar_none.1 this.symm
  refine ⟨hc, fun f' p' t' => ?_⟩
  have hno : ¬ (isNumStart c = true ∨ c = 0x22 ∨ c = 0x74 ∨ c = 0x66 ∨ c = 0x6E) := fun hh => by
    have h2 : c ≠ 0x5B ∧ c ≠ 0x7B := by
      rcases hh with hh | rfl | rfl | rfl | rfl
      · constructor <;> (rintro rfl; exact absurd hh (by decide))
      all_goals decide
    rcases hc with hc | hc | hc
    · exact h2.1 hc
    · exact h2.2 hc
    · apply hc
      rw [← valStart_cases]
      rcases hh with hh | hh | hh | hh | hh <;> simp [hh]
  unfold parseScalarM
  rw [if_neg (fun h => hno (.inl h)), if_neg (fun h => hno (.inr (.inl h))), if_neg (fun h => hno (.inr (.inr (.inl h)))),
    if_neg (fun h => hno (.inr (.inr (.inr (.inl h))))), if_neg (fun h => hno (.inr (.inr (.inr (.inr h)))))]
  rfl

theorem parseScalarM_err {E : Env} {f p : Nat} {c : UInt8} {t : Bytes} {m : Msg} (h : parseScalarM E f p c t = .err m) :
    Says (NumTok E) p (c :: t) m ∧ ∀ q, fault m = some q → ∃ d x u, c :: t = d ++ x :: u ∧ q = p + d.length ∧
      ∀ u', ∃ t', c :: t' = d ++ x :: u' ∧ parseScalarM E f p c t' = .err m := by
  unfold parseScalarM at h ⊢
  by_cases hn : isNumStart c = true
  · simp only [if_pos hn] at h ⊢
    rcases bindM_err h with h1 | ⟨x, h1, hx⟩
    · obtain ⟨g1, g2⟩ := parseNumberM_err hn h1
      refine ⟨says_here g1, fun q hq => ?_⟩
      obtain ⟨d, x, u, k1, k2, k3⟩ := g2 q hq
      refine ⟨d, x, u, k1, k2, fun u' => ?_⟩
      have k := k3 u'
      rcases d with _ | ⟨d0, d⟩
      · simp only [List.nil_append, List.cons.injEq] at k1 k
        obtain ⟨rfl, rfl⟩ := k1
        exact ⟨u', rfl, by rw [k]; rfl⟩
      · simp only [List.cons_append, List.cons.injEq] at k1 k
        obtain ⟨rfl, rfl⟩ := k1
        exact ⟨d ++ x :: u', rfl, by rw [k]; rfl⟩
    · cases hx
  · simp only [if_neg hn] at h ⊢
    have lit : ∀ {lit : Bytes} {e : Err} {b : Msg} {w : V},
        (do let (p, rest) ← parseLitM p (c :: t) lit (.litShort e p) b; pure (some (w, p, rest)) : RM (Option (V × Nat × Bytes))) = .err m →
        Literal lit e → lit.head? = some c → fault b = none → ((∀ r, c :: t ≠ lit ++ r) → MsgHolds (NumTok E) p (c :: t) b) →
        Says (NumTok E) p (c :: t) m ∧ fault m = none := by
      intro lit e b w h hl hh hb hs
      rcases bindM_err h with h1 | ⟨x, h1, hx⟩
      · rcases parseLitM_err h1 with ⟨h2, rfl⟩ | ⟨h2, rfl⟩
        · exact ⟨says_here ⟨rfl, lit, hl, by simp, by rw [hh]; rfl, h2⟩, rfl⟩
        · exact ⟨says_here (hs h2), hb⟩
      · cases hx
    split at h
    · rename_i h22
      simp only [if_pos h22]
      rcases bindM_err h with h1 | ⟨x, h1, hx⟩
      · obtain ⟨g1, g2⟩ := strLoopM_err h1 (N := NumTok E)
        refine ⟨says_app (a := [c]) g1, fun q hq => ?_⟩
        obtain ⟨d, x, u, rfl, k2, k3⟩ := g2 q hq
        refine ⟨c :: d, x, u, rfl, by rw [k2, List.length_cons]; omega, fun u' => ⟨d ++ x :: u', rfl, ?_⟩⟩
        have k : strLoopM f (p + 1) (d ++ x :: u') [] = .err m := k3 u'
        rw [k]; rfl
      · cases hx
    · rename_i h22
      split at h
      · rename_i ht
        obtain ⟨g1, g2⟩ := lit h (.inl ⟨rfl, rfl⟩) (by rw [ht]; rfl) rfl (fun hh => ⟨rfl, t, by rw [ht], hh⟩)
        exact ⟨g1, fun q hq => by rw [g2] at hq; cases hq⟩
      · split at h
        · rename_i ht
          obtain ⟨g1, g2⟩ := lit h (.inr (.inl ⟨rfl, rfl⟩)) (by rw [ht]; rfl) rfl (fun hh => ⟨rfl, t, by rw [ht], hh⟩)
          exact ⟨g1, fun q hq => by rw [g2] at hq; cases hq⟩
        · split at h
          · rename_i ht
            obtain ⟨g1, g2⟩ := lit h (.inr (.inr ⟨rfl, rfl⟩)) (by rw [ht]; rfl) rfl (fun hh => ⟨rfl, t, by rw [ht], hh⟩)
            exact ⟨g1, fun q hq => by rw [g2] at hq; cases hq⟩
          · cases h

end JV
