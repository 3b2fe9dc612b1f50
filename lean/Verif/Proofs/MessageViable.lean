import Verif.Proofs.MessageSays
/-! Texts that might have gone on to be good ones. -/
namespace JV
open Spec

/-- the text up to position `q` can be completed, whatever follows then -/
def Compl {α : Type} (g : Nat → Bytes → RM (α × Nat × Bytes)) (p : Nat) (s : Bytes) (q : Nat) : Prop :=
  ∃ d u w F, s = d ++ u ∧ q = p + d.length ∧ (d = [] → ∀ r', NumEnd (w ++ r')) ∧ ∀ f, F ≤ f → ∀ r', ∃ x q', g f (d ++ (w ++ r')) = .ok (x, q', r')

theorem more_ok {α : Type} {x y : RM α} {a : α} (h : More x y) (hx : x = .ok a) : y = .ok a := by
  rcases h with rfl | rfl
  · cases hx
  · exact hx

theorem strLoopM_viable {f p q : Nat} {s acc : Bytes} {m : Msg} (h : strLoopM f p s acc = .err m) (hq : viable (p + s.length) m = some q) :
    Compl (fun f s => strLoopM f p s acc) p s q := by
  have close : ∀ f, 1 ≤ f → ∀ p acc r', strLoopM f p (0x22 :: r') acc = .ok (acc, p + 1, r') := fun f hf p acc r' => by
    obtain ⟨f, rfl⟩ : ∃ g, f = g + 1 := ⟨f - 1, by omega⟩
    rw [strLoopM, strStepM_quote]; rfl
  have qe : ∀ r', NumEnd ([0x22] ++ r') := fun r' c t hc => by cases hc; simp [NumChar, Digit]
  induction f generalizing p s acc with
  | zero => cases h
  | succ f ih =>
    rcases s with _ | ⟨c, t⟩
    · cases h
      cases hq
      exact ⟨[], [], [0x22], 1, rfl, rfl, fun _ => qe, fun f hf r' => ⟨_, _, close f hf ..⟩⟩
    · rw [strLoopM] at h
      rcases bindM_err h with h1 | ⟨x, h1, hx⟩
      · obtain ⟨-, -, g3⟩ := strStepM_err (N := fun _ => True) h1
        cases g3 _ _ hq
        exact ⟨[], c :: t, [0x22], 1, rfl, rfl, fun _ => qe, fun f hf r' => ⟨_, _, close f hf ..⟩⟩
      · clear h
        rcases x with _ | ⟨bs1, p1, t1⟩
        · cases hx
        · dsimp only at hx
          obtain ⟨d, rfl, h2, h3⟩ := strStepM_ok h1
          have hl : p + (c :: (d ++ t1)).length = p1 + t1.length := by rw [h2]; simp; omega
          rw [hl] at hq
          obtain ⟨e, u, w, F, rfl, k2, k3, k4⟩ := ih hx hq
          refine ⟨c :: (d ++ e), u, w, F + 1, by simp, by rw [k2, h2]; simp; omega, (fun h => by cases h), fun f hf r' => ?_⟩
          obtain ⟨f, rfl⟩ : ∃ g, f = g + 1 := ⟨f - 1, by omega⟩
          obtain ⟨x, q', k5⟩ := k4 f (by omega) r'
          refine ⟨x, q', ?_⟩
          show strLoopM (f + 1) p (c :: (d ++ e) ++ (w ++ r')) acc = _
          have hne : e ++ (w ++ r') = [] → e ++ u = [] := fun h0 => by
            dsimp only at k5
            rw [h0] at k5
            rcases f with _ | f <;> cases k5
          rw [List.cons_append, List.append_assoc, strLoopM, h3 (e ++ (w ++ r')) hne]
          exact k5

/-- what closes a loop -/
def closeW : LSt → Bytes
  | .inl _ => [0x5D]
  | .inr (st, _) => match st.key with
    | none => [0x7D]
    | some _ => if st.colon then [0x6E, 0x75, 0x6C, 0x6C, 0x7D] else [0x3A, 0x6E, 0x75, 0x6C, 0x6C, 0x7D]

theorem closeW_facts (σ : LSt) : ∃ c t, closeW σ = c :: t ∧ isBlank c = false ∧ ¬ NumChar c := by
  rcases σ with acc | ⟨st, ks⟩
  · exact ⟨_, _, rfl, by decide, by simp [NumChar, Digit]⟩
  · unfold closeW
    dsimp only
    split
    · exact ⟨_, _, rfl, by decide, by simp [NumChar, Digit]⟩
    · split
      · exact ⟨_, _, rfl, by decide, by simp [NumChar, Digit]⟩
      · exact ⟨_, _, rfl, by decide, by simp [NumChar, Digit]⟩

theorem loop_one (E : Env) (f p : Nat) {c : UInt8} (hc : isBlank c = false) (t : Bytes) (σ : LSt) :
    loopS E (f + 1) p (c :: t) σ = runAct E f p c t (act p c σ) :=
  loopS_cons E f p (b := []) (fun x hx => by cases hx) hc t σ

theorem scalar_null (E : Env) (f p : Nat) (t : Bytes) : parseScalarM E f p 0x6E (0x75 :: 0x6C :: 0x6C :: t) = .ok (some (.null, p + 4, t)) := by
  unfold parseScalarM
  rw [if_neg (by decide), if_neg (by decide), if_neg (by decide), if_neg (by decide), if_pos rfl]
  have : parseLitM p (0x6E :: 0x75 :: 0x6C :: 0x6C :: t) litNull (.litShort .notValidNullValue p) (.notNull p) = .ok (p + 4, t) := by
    unfold parseLitM
    rw [if_neg (by simp [litNull]), if_pos (by simp [litNull])]
    simp [litNull]
  rw [this]; rfl

theorem closes (E : Env) (σ : LSt) (f : Nat) (hf : 3 ≤ f) (p : Nat) (r' : Bytes) : ∃ x q', loopS E f p (closeW σ ++ r') σ = .ok (x, q', r') := by
  obtain ⟨f, rfl⟩ : ∃ g, f = g + 3 := ⟨f - 3, by omega⟩
  rcases σ with acc | ⟨st, ks⟩
  · exact ⟨_, _, loop_one E (f + 2) p (by decide) r' _⟩
  · have fin : ∀ (f p : Nat) (st : OSt), st.key = none → ∃ x q', loopS E (f + 1) p (0x7D :: r') (.inr (st, ks)) = .ok (x, q', r') := fun f p st hst => by
      rw [loop_one E f p (by decide)]
      have : act p 0x7D (.inr (st, ks)) = .done (.obj st.incr st.kvs none) := by
        unfold act
        simp only [hst]
        rfl
      rw [this]
      exact ⟨_, _, rfl⟩
    have nul : ∀ (f p : Nat) (st : OSt) k, st.key = some k → st.colon = true →
        ∃ x q', loopS E (f + 2) p (0x6E :: 0x75 :: 0x6C :: 0x6C :: 0x7D :: r') (.inr (st, ks)) = .ok (x, q', r') := fun f p st k hst hcol => by
      rw [loop_one E (f + 1) p (by decide)]
      have : act p 0x6E (.inr (st, ks)) = .scal fun v => .inr (setMember st k v, ks) := by
        unfold act
        simp only [hst, hcol]
        rfl
      rw [this]
      simp only [runAct, scalar_null, RM.bind_ok]
      exact fin f _ _ rfl
    cases hk : st.key with
    | none =>
      have hw : closeW (.inr (st, ks)) = [0x7D] := by simp only [closeW, hk]
      rw [hw]
      exact fin (f + 2) p st hk
    | some k =>
      cases hcol : st.colon
      · have hw : closeW (.inr (st, ks)) = [0x3A, 0x6E, 0x75, 0x6C, 0x6C, 0x7D] := by simp [closeW, hk, hcol]
        rw [hw]
        simp only [List.cons_append, List.nil_append]
        rw [loop_one E (f + 2) p (by decide)]
        have : act p 0x3A (.inr (st, ks)) = .skip (.inr ({ st with colon := true }, ks)) := by
          unfold act
          simp only [hk, hcol]
          rfl
        rw [this]
        exact nul f (p + 1) { st with colon := true } k hk rfl
      · have hw : closeW (.inr (st, ks)) = [0x6E, 0x75, 0x6C, 0x6C, 0x7D] := by simp [closeW, hk, hcol]
        rw [hw]
        exact nul (f + 1) p st k hk hcol

theorem closes_blank (E : Env) {b : Bytes} (hb : Blank b) (σ : LSt) (f : Nat) (hf : 3 ≤ f) (p : Nat) (r' : Bytes) :
    ∃ x q', loopS E f p (b ++ (closeW σ ++ r')) σ = .ok (x, q', r') := by
  obtain ⟨c, t, h1, h2, -⟩ := closeW_facts σ
  obtain ⟨x, q', h⟩ := closes E σ f hf (p + b.length) r'
  obtain ⟨f, rfl⟩ : ∃ g, f = g + 1 := ⟨f - 1, by omega⟩
  refine ⟨x, q', ?_⟩
  rw [← h, h1, List.cons_append, loopS_cons E f p hb h2, loop_one E f _ h2]

/-- what closes the loop after a value does not depend on the value -/
def ActClose : LoopAct → Prop
  | .sub _ K => ∃ w, ∀ v, closeW (K v) = w
  | .scal K => ∃ w, ∀ v, closeW (K v) = w
  | .key K => ∃ w, ∀ k, closeW (K k) = w
  | _ => True

theorem act_close (p : Nat) (c : UInt8) (σ : LSt) : ActClose (act p c σ) := by
  rcases σ with acc | ⟨st, ks⟩
  · unfold act
    dsimp only
    split
    · trivial
    · split
      · trivial
      · split
        · exact ⟨_, fun v => rfl⟩
        · split
          · exact ⟨_, fun v => rfl⟩
          · split
            · exact ⟨_, fun v => rfl⟩
            · trivial
  · unfold act
    dsimp only
    cases hk : st.key with
    | none =>
      dsimp only
      split
      · trivial
      · split
        · trivial
        · split
          · trivial
          · split
            · exact ⟨if st.colon then _ else _, fun v => rfl⟩
            · split <;> trivial
    | some k =>
      dsimp only
      split
      · trivial
      · split
        · split <;> trivial
        · split
          · trivial
          · split
            · trivial
            · split
              · exact ⟨_, fun v => rfl⟩
              · split
                · exact ⟨_, fun v => rfl⟩
                · exact ⟨_, fun v => rfl⟩

theorem parseNumberM_num {E : Env} {p : Nat} {s : Bytes} {m : Msg} (h : parseNumberM E p s = .err m) : ∃ k q, m = .num k q := by
  unfold parseNumberM at h
  rcases bindM_err h with h1 | ⟨⟨st, text, rest⟩, -, h2⟩
  · obtain ⟨c, b, t, -, rfl, -⟩ := numLoopM_err h1
    exact ⟨_, _, rfl⟩
  · dsimp only at h2
    split at h2
    · split at h2
      · cases h2; exact ⟨_, _, rfl⟩
      · rcases bindM_err h2 with h3 | ⟨n, -, h3⟩
        · exact ⟨_, _, (withMsg_err h3).1⟩
        · cases h3
    · rcases bindM_err h2 with h3 | ⟨b, -, h3⟩
      · obtain ⟨-, e, he⟩ := withMsg_err h3
        unfold rd at he
        split at he <;> cases he
      · split at h3
        · cases h3; exact ⟨_, _, rfl⟩
        · split at h3
          · cases h3; exact ⟨_, _, rfl⟩
          · rcases bindM_err h3 with h4 | ⟨n, -, h4⟩
            · exact ⟨_, _, (withMsg_err h4).1⟩
            · cases h4

theorem parseScalarM_viable {E : Env} {f p n q : Nat} {c : UInt8} {t : Bytes} {m : Msg} (h : parseScalarM E f p c t = .err m) (hq : viable n m = some q) :
    c = 0x22 ∧ strLoopM f (p + 1) t [] = .err m := by
  have lit : ∀ {lit : Bytes} {a b : Msg} {w : V},
      (do let (p, rest) ← parseLitM p (c :: t) lit a b; pure (some (w, p, rest)) : RM (Option (V × Nat × Bytes))) = .err m → m = a ∨ m = b := by
    intro lit a b w h
    rcases bindM_err h with h1 | ⟨x, h1, hx⟩
    · rcases parseLitM_err h1 with ⟨-, h⟩ | ⟨-, h⟩
      · exact .inl h
      · exact .inr h
    · cases hx
  unfold parseScalarM at h
  split at h
  · rcases bindM_err h with h1 | ⟨x, h1, hx⟩
    · obtain ⟨k, q, rfl⟩ := parseNumberM_num h1
      cases hq
    · cases hx
  · split at h
    · rename_i h22
      rcases bindM_err h with h1 | ⟨x, h1, hx⟩
      · exact ⟨h22, h1⟩
      · cases hx
    · exfalso
      split at h
      · rcases lit h with rfl | rfl <;> cases hq
      · split at h
        · rcases lit h with rfl | rfl <;> cases hq
        · split at h
          · rcases lit h with rfl | rfl <;> cases hq
          · cases h

theorem loopS_viable {E : Env} {f p p0 q : Nat} {pre s : Bytes} {σ : LSt} {m : Msg} (hp : Pend σ p p0 pre) (h : loopS E f p s σ = .err m)
    (hq : viable (p + s.length) m = some q) : Compl (fun f s => loopS E f p s σ) p s q := by
  induction f generalizing p p0 pre s σ m with
  | zero => rcases σ with acc | ⟨st, ks⟩ <;> simp [loopS, arrLoopM, objLoopM] at h
  | succ f ih =>
    have wEnd : ∀ r', NumEnd (closeW σ ++ r') := fun r' c t hc => by
      obtain ⟨c', t', h1, -, h3⟩ := closeW_facts σ
      rw [h1] at hc
      cases hc
      exact h3
    rcases blank_cases s with hb | ⟨b, c, t, rfl, hb, hc⟩
    · rw [loopS_nil E f p hb] at h
      cases h
      have hq' : q = p + s.length := by rcases σ with acc | ⟨st, ks⟩ <;> (cases hq; rfl)
      exact ⟨s, [], closeW σ, 3, by simp, hq', fun _ => wEnd, fun f hf r' => closes_blank E hb σ f hf p r'⟩
    rw [loopS_cons E f p hb hc] at h
    have facts := act_facts (N := fun _ => True) hp hb hc
    have clo := act_close (p + b.length) c σ
    have hp0 := hp.1
    -- from the tail of the text to the text
    have go : ∀ {F : Nat} {d u w : Bytes}, t = d ++ u → q = p + b.length + 1 + d.length →
        (∀ f, F ≤ f → ∀ r', ∃ x q', runAct E f (p + b.length) c (d ++ (w ++ r')) (act (p + b.length) c σ) = .ok (x, q', r')) →
        Compl (fun f s => loopS E f p s σ) p (b ++ c :: t) q := by
      intro F d u w h1 h2 h3
      refine ⟨b ++ c :: d, u, w, F + 1, by rw [h1]; simp, by rw [h2]; simp; omega, (fun h => by simp at h), fun f hf r' => ?_⟩
      obtain ⟨f, rfl⟩ : ∃ g, f = g + 1 := ⟨f - 1, by omega⟩
      obtain ⟨x, q', h4⟩ := h3 f (by omega) r'
      refine ⟨x, q', ?_⟩
      show loopS E (f + 1) p (b ++ c :: d ++ (w ++ r')) σ = _
      rw [List.append_assoc, List.cons_append, loopS_cons E f p hb hc, h4]
    have hlen : p + (b ++ c :: t).length = p + b.length + 1 + t.length := by simp; omega
    rw [hlen] at hq
    cases ha : act (p + b.length) c σ with
    | done w => rw [ha] at h; cases h
    | stop m' =>
      rw [ha] at h facts
      cases h
      have hq' := facts.2.2 _ q hq
      exact ⟨b, c :: t, closeW σ, 3, rfl, hq', fun _ => wEnd, fun f hf r' => closes_blank E hb σ f hf p r'⟩
    | skip σ' =>
      rw [ha] at h facts
      obtain ⟨x, p0', pre', g1, g2, g3⟩ := facts
      obtain ⟨d, u, w, F, k1, k2, -, k4⟩ := ih g3 h hq
      exact go (F := F) (w := w) k1 k2 fun f hf r' => by rw [ha]; exact k4 f hf r'
    | sub σ0 K =>
      rw [ha] at h facts clo
      obtain ⟨g1, g2⟩ := facts
      obtain ⟨w0, clo⟩ := clo
      rcases bindM_err h with h1 | ⟨⟨v1, p1, t1⟩, h1, h2⟩
      · obtain ⟨d, u, w, F, k1, k2, -, k4⟩ := ih g1 h1 hq
        refine go (F := F + 3) (w := w ++ w0) k1 k2 fun f hf r' => ?_
        obtain ⟨x, q', k5⟩ := k4 f (by omega) (w0 ++ r')
        obtain ⟨y, q2, k6⟩ := closes E (K x) f (by omega) q' r'
        rw [clo] at k6
        refine ⟨y, q2, ?_⟩
        dsimp only at k5
        rw [ha]
        simp only [runAct, List.append_assoc, k5, RM.bind_ok]
        exact k6
      · obtain ⟨d1, -, rfl, e3, e4⟩ := loopS_ok h1
        have hl : p + b.length + 1 + (d1 ++ t1).length = p1 + t1.length := by rw [e3]; simp; omega
        rw [hl] at hq
        obtain ⟨d, u, w, F, k1, k2, -, k4⟩ := ih (g2 v1 p1) h2 hq
        refine go (F := F + f) (d := d1 ++ d) (u := u) (w := w) (by rw [k1]; simp) (by rw [k2, e3]; simp; omega) fun f' hf r' => ?_
        obtain ⟨x, q', k5⟩ := k4 f' (by omega) r'
        refine ⟨x, q', ?_⟩
        have := more_ok (loopS_more (by omega : f ≤ f') E _ _ _) (e4 (d ++ (w ++ r')))
        rw [ha]
        simp only [runAct, List.append_assoc, this, RM.bind_ok]
        exact k5
    | scal K =>
      rw [ha] at h facts clo
      obtain ⟨w0, clo⟩ := clo
      rcases bindM_err h with h1 | ⟨x, h1, h2⟩
      · obtain ⟨rfl, h3⟩ := parseScalarM_viable h1 hq
        obtain ⟨d, u, w, F, k1, k2, -, k4⟩ := strLoopM_viable h3 hq
        refine go (F := F + 3) (w := w ++ w0) k1 k2 fun f hf r' => ?_
        obtain ⟨x, q', k5⟩ := k4 (f + 1) (by omega) (w0 ++ r')
        obtain ⟨y, q2, k6⟩ := closes E (K (.str x)) f (by omega) q' r'
        rw [clo] at k6
        refine ⟨y, q2, ?_⟩
        dsimp only at k5
        rw [ha]
        simp only [runAct, List.append_assoc, scalar_quote, k5, RM.bind_ok]
        exact k6
      · rcases x with _ | ⟨v1, p1, t1⟩
        · exfalso
          have hns : c = 0x5B ∨ c = 0x7B ∨ ¬ ValStart c := (parseScalarM_none h1).1
          have hsc : isScal c = true ∧ c ≠ 0x5B ∧ c ≠ 0x7B := by
            rcases σ with acc | ⟨st, ks⟩
            · unfold act at ha; dsimp only at ha; grind
            · unfold act at ha; dsimp only at ha
              cases hk : st.key <;> rw [hk] at ha <;> dsimp only at ha <;> grind
          rcases hns with h | h | h
          · exact hsc.2.1 h
          · exact hsc.2.2 h
          · exact h ((isScal_iff c).1 (.inr (.inr hsc.1)))
        · obtain ⟨e2, d1, rfl, e3, e4⟩ := parseScalarM_ok h1
          have hl : p + b.length + 1 + (d1 ++ t1).length = p1 + t1.length := by rw [e3]; simp; omega
          rw [hl] at hq
          obtain ⟨d, u, w, F, k1, k2, k3, k4⟩ := ih (facts v1 p1) h2 hq
          refine go (F := F + f) (d := d1 ++ d) (u := u) (w := w) (by rw [k1]; simp) (by rw [k2, e3]; simp; omega) fun f' hf r' => ?_
          obtain ⟨x, q', k5⟩ := k4 f' (by omega) r'
          refine ⟨x, q', ?_⟩
          have hne : isNumStart c = true → NumEnd (d ++ (w ++ r')) := fun hn => by
            by_cases hd : d = []
            · rw [hd]; exact k3 hd r'
            · exact numEnd_head hd (by rw [← k1]; exact e2 hn)
          have := more_ok (parseScalarM_more (by omega : f + 1 ≤ f' + 1) E _ _ _) (e4 (d ++ (w ++ r')) hne)
          rw [ha]
          simp only [runAct, List.append_assoc, this, RM.bind_ok]
          exact k5
    | key K =>
      rw [ha] at h facts clo
      obtain ⟨rfl, rfl, g2⟩ := facts
      obtain ⟨w0, clo⟩ := clo
      rcases bindM_err h with h1 | ⟨⟨v1, p1, t1⟩, h1, h2⟩
      · obtain ⟨d, u, w, F, k1, k2, -, k4⟩ := strLoopM_viable h1 hq
        refine go (F := F + 3) (w := w ++ w0) k1 k2 fun f hf r' => ?_
        obtain ⟨x, q', k5⟩ := k4 (f + 1) (by omega) (w0 ++ r')
        obtain ⟨y, q2, k6⟩ := closes E (K x) f (by omega) q' r'
        rw [clo] at k6
        refine ⟨y, q2, ?_⟩
        dsimp only at k5
        rw [ha]
        simp only [runAct, List.append_assoc, k5, RM.bind_ok]
        exact k6
      · obtain ⟨body, hL, -, e5⟩ := strLoopM_body h1
        obtain ⟨d1, -, rfl, e3, e4⟩ := strLoopM_ok h1
        have hl : p + b.length + 1 + (d1 ++ t1).length = p1 + t1.length := by rw [e3]; simp; omega
        rw [hl] at hq
        obtain ⟨d, u, w, F, k1, k2, -, k4⟩ := ih (by rw [e5]; exact g2 body v1 hL) h2 hq
        refine go (F := F + f) (d := d1 ++ d) (u := u) (w := w) (by rw [k1]; simp) (by rw [k2, e3]; simp; omega) fun f' hf r' => ?_
        obtain ⟨x, q', k5⟩ := k4 f' (by omega) r'
        refine ⟨x, q', ?_⟩
        have := more_ok (strLoopM_more (by omega : f + 1 ≤ f' + 1) _ _ _) (e4 (d ++ (w ++ r')))
        rw [ha]
        simp only [runAct, List.append_assoc, this, RM.bind_ok]
        exact k5

end JV
