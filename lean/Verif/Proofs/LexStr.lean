import Verif.Proofs.RefineStr
import Verif.Spec.Lenient
/-! String literals: the loop accepts exactly `Spec.LStr`. -/
namespace JV
open Spec

theorem mask_shift (r m k n : Nat) (h : m >>> k = 2 ^ n - 1) : (r &&& m) >>> k = r / 2 ^ k % 2 ^ n := by
  rw [Nat.shiftRight_and_distrib, h, Nat.and_two_pow_sub_one_eq_mod, Nat.shiftRight_eq_div_pow]

theorem ofNat_add8 (a b : Nat) : UInt8.ofNat a + UInt8.ofNat b = UInt8.ofNat (b + a) := by
  rw [Nat.add_comm]; exact (UInt8.ofNat_add a b).symm

theorem runeBytes_lt {r : Nat} (h : r < 0x10000) : runeBytes r = utf8 r := by
  unfold runeBytes utf8
  by_cases h1 : r < 0x80
  · rw [if_pos (by omega), if_pos h1]
  · rw [if_neg (by omega), if_neg h1]
    by_cases h2 : r < 0x800
    · rw [if_pos (by omega), if_pos h2, mask_shift r 0x7C0 6 5 (by decide), mask_shift r 0x3F 0 6 (by decide)]
      have : r / 2 ^ 6 % 2 ^ 5 = r / 64 := by omega
      rw [this]
      simp only [Nat.pow_zero, Nat.div_one]
      show [UInt8.ofNat _ + UInt8.ofNat 0xC0, UInt8.ofNat _ + UInt8.ofNat 0x80] = _
      rw [ofNat_add8, ofNat_add8]
    · rw [if_neg (by omega), if_neg h2, if_pos (by omega), if_pos h, mask_shift r 0xF000 12 4 (by decide),
        mask_shift r 0xFC0 6 6 (by decide), mask_shift r 0x3F 0 6 (by decide)]
      have : r / 2 ^ 12 % 2 ^ 4 = r / 4096 := by omega
      rw [this]
      simp only [Nat.pow_zero, Nat.div_one]
      show [UInt8.ofNat _ + UInt8.ofNat 0xE0, UInt8.ofNat _ + UInt8.ofNat 0x80, UInt8.ofNat _ + UInt8.ofNat 0x80] = _
      rw [ofNat_add8, ofNat_add8, ofNat_add8]

theorem runeBytes_ge {r : Nat} (h : 0x10000 ≤ r) : runeBytes r = utf8four r := by
  unfold runeBytes utf8four
  rw [if_neg (by omega), if_neg (by omega), if_neg (by omega), mask_shift r 0x1C0000 18 3 (by decide), mask_shift r 0x03F000 12 6 (by decide),
        mask_shift r 0xFC0 6 6 (by decide), mask_shift r 0x3F 0 6 (by decide)]
  simp only [Nat.pow_zero, Nat.div_one]
  show [UInt8.ofNat _ + UInt8.ofNat 0xF0, UInt8.ofNat _ + UInt8.ofNat 0x80, UInt8.ofNat _ + UInt8.ofNat 0x80, UInt8.ofNat _ + UInt8.ofNat 0x80] = _
  rw [ofNat_add8, ofNat_add8, ofNat_add8, ofNat_add8]

theorem utf8_four {r : Nat} (h : 0x10000 ≤ r) (h2 : r < 0x200000) : utf8 r = utf8four r := by
  unfold utf8 utf8four
  rw [if_neg (by omega), if_neg (by omega), if_neg (by omega)]
  have : r / 262144 % 8 = r / 262144 := by omega
  rw [this]

theorem chrToHex_iff (c : UInt8) (n : Nat) : chrToHex c = some n ↔ Hex c n := by
  unfold chrToHex Hex
  simp only [UInt8.le_iff_toNat_le]
  show (if (0x30 ≤ c.toNat ∧ c.toNat ≤ 0x39) then _ else if (0x41 ≤ c.toNat ∧ c.toNat ≤ 0x46) then _ else if (0x61 ≤ c.toNat ∧ c.toNat ≤ 0x66) then _ else _) = _ ↔ _
  split
  · simp only [Option.some.injEq]; omega
  · split
    · simp only [Option.some.injEq]; omega
    · split
      · simp only [Option.some.injEq]; omega
      · simp; omega

theorem hex4_iff (a b c d : UInt8) (u : Nat) : hex4 a b c d = .ok u ↔ UEsc [0x5C, 0x75, a, b, c, d] u := by
  unfold hex4 UEsc
  constructor
  · intro h
    split at h
    · rename_i x3 x2 x1 x0 h3 h2 h1 h0
      simp only [R.ok.injEq] at h
      exact ⟨a, b, c, d, x3, x2, x1, x0, rfl, (chrToHex_iff _ _).1 h3, (chrToHex_iff _ _).1 h2, (chrToHex_iff _ _).1 h1, (chrToHex_iff _ _).1 h0,
        by rw [← h]; simp only [Nat.shiftLeft_eq]⟩
    · simp at h
  · rintro ⟨a', b', c', d', x3, x2, x1, x0, he, h3, h2, h1, h0, rfl⟩
    simp only [List.cons.injEq, and_true, true_and] at he
    obtain ⟨rfl, rfl, rfl, rfl⟩ := he
    rw [(chrToHex_iff _ _).2 h3, (chrToHex_iff _ _).2 h2, (chrToHex_iff _ _).2 h1, (chrToHex_iff _ _).2 h0]
    simp only [Nat.shiftLeft_eq]

theorem _root_.Spec.UEsc.lt {e : Bytes} {u : Nat} (h : UEsc e u) : u < 0x10000 := by
  obtain ⟨a, b, c, d, x3, x2, x1, x0, -, h3, h2, h1, h0, rfl⟩ := h
  have : ∀ c n, Hex c n → n < 16 := by unfold Hex; intro c n h; omega
  have g3 := this _ _ h3; have g2 := this b x2 h2; have g1 := this c x1 h1; have g0 := this d x0 h0
  omega

theorem surrogatePair_iff (r e u : Nat) : surrogatePair r e = .ok u ↔ 0xDC00 ≤ e ∧ e < 0xE000 ∧ u = 0x10000 + (r - 0xD800) * 1024 + (e - 0xDC00) := by
  unfold surrogatePair
  split
  · simp; omega
  · split
    · simp; omega
    · simp only [R.ok.injEq, Nat.shiftLeft_eq]; omega

/-- a text that contributes `bs` at the front of a literal -/
def Piece (txt bs : Bytes) : Prop := ∀ t d, LStr t d → LStr (txt ++ t) (bs ++ d)

theorem escUnicode_sound {s bs t' : Bytes} (h : escUnicode s = .ok (bs, t')) :
    ∃ txt, 0x5C :: 0x75 :: s = txt ++ t' ∧ Piece txt bs := by
  match s with
  | [] => simp [escUnicode] at h
  | [_] => simp [escUnicode] at h
  | [_, _] => simp [escUnicode] at h
  | [_, _, _] => simp [escUnicode] at h
  | [_, _, _, _] => simp [escUnicode] at h
  | a :: b :: c :: d :: x :: u =>
    simp only [escUnicode] at h
    match hr : hex4 a b c d with
    | .ok r =>
      have hue := (hex4_iff a b c d r).1 hr
      have hlt := hue.lt
      simp only [hr, R.bind_ok] at h
      split at h
      · rename_i hn
        simp only [R.pure_eq, R.ok.injEq, Prod.mk.injEq] at h
        obtain ⟨rfl, rfl⟩ := h
        refine ⟨[0x5C, 0x75, a, b, c, d], by simp, fun t dd ht => ?_⟩
        rw [runeBytes_lt hlt]
        exact LStr.uni _ _ _ _ hue (by omega) ht
      · rename_i hn
        split at h
        · rename_i _ q a' b' c' d' y u'
          split at h
          · simp at h
          · split at h
            · simp at h
            · rename_i hx hq
              match he : hex4 a' b' c' d' with
              | .ok e =>
                simp only [he, R.bind_ok] at h
                match hp : surrogatePair r e with
                | .ok r' =>
                  simp only [hp, R.bind_ok, R.pure_eq, R.ok.injEq, Prod.mk.injEq] at h
                  obtain ⟨rfl, rfl⟩ := h
                  have hx : x = 0x5C := Classical.byContradiction hx
                  have hq : q = 0x75 := Classical.byContradiction hq
                  subst hx hq
                  obtain ⟨g1, g2, hr'⟩ := (surrogatePair_iff _ _ _).1 hp
                  refine ⟨[0x5C, 0x75, a, b, c, d] ++ [0x5C, 0x75, a', b', c', d'], by simp, fun t dd ht => ?_⟩
                  rw [runeBytes_ge (by omega), hr']
                  exact LStr.pair _ _ _ _ _ _ hue ((hex4_iff _ _ _ _ _).1 he) (by omega) (by omega) g1 g2 ht
                | .err e => simp [hp] at h
                | .panic => simp [hp] at h
                | .diverge => simp [hp] at h
              | .err e => simp [he] at h
              | .panic => simp [he] at h
              | .diverge => simp [he] at h
        · simp at h
    | .err e => simp [hr] at h
    | .panic => simp [hr] at h
    | .diverge => simp [hr] at h

theorem lead_facts : ∀ c : UInt8, (lead2 c = true ↔ leadLen c = 2) ∧ (lead3 c = true ↔ leadLen c = 3) ∧ (lead4 c = true ↔ leadLen c = 4) ∧
    (0 < leadLen c → ¬ c ≤ 0x7F ∧ c ≠ 0x5C ∧ c ≠ 0x22) ∧ leadLen c ≤ 4 ∧ leadLen c ≠ 1 := by
  have key : ∀ n : Fin 256, let c := UInt8.ofNat n.1; (lead2 c = true ↔ leadLen c = 2) ∧ (lead3 c = true ↔ leadLen c = 3) ∧ (lead4 c = true ↔ leadLen c = 4) ∧
    (0 < leadLen c → ¬ c ≤ 0x7F ∧ c ≠ 0x5C ∧ c ≠ 0x22) ∧ leadLen c ≤ 4 ∧ leadLen c ≠ 1 := by decide +kernel
  intro c
  have := key ⟨c.toNat, c.toNat_lt⟩
  simpa using this

theorem simpleEsc_iff (c b : UInt8) : simpleEsc c = some b ↔ (EscChar c b ∨ (c = 0x27 ∧ b = 0x27)) := by
  unfold simpleEsc EscChar
  constructor
  · intro h
    repeat' split at h
    all_goals simp only [Option.some.injEq, reduceCtorEq] at h
    all_goals grind
  · rintro ((⟨rfl, rfl⟩ | ⟨rfl, rfl⟩ | ⟨rfl, rfl⟩ | ⟨rfl, rfl⟩ | ⟨rfl, rfl⟩ | ⟨rfl, rfl⟩ | ⟨rfl, rfl⟩ | ⟨rfl, rfl⟩) | ⟨rfl, rfl⟩) <;> rfl

theorem shiftA_sound {c : UInt8} {t bs t' : Bytes} {n : Nat} (hn : leadLen c = n) (h2 : 2 ≤ n) (h : shiftA (c :: t) n = .ok (bs, t')) :
    ∃ txt, c :: t = txt ++ t' ∧ Piece txt bs := by
  unfold shiftA at h
  split at h
  · simp at h
  · rename_i hl
    simp only [R.ok.injEq, Prod.mk.injEq] at h
    obtain ⟨rfl, rfl⟩ := h
    refine ⟨(c :: t).take n, by simp, fun u d hu => ?_⟩
    obtain ⟨k, rfl⟩ : ∃ k, n = k + 1 := ⟨n - 1, by omega⟩
    simp only [List.take_succ_cons]
    simp at hl
    exact LStr.multi _ _ _ _ (by rw [hn]; simp; omega) (by simp; omega) hu

theorem strStep_sound {c : UInt8} {t bs t' : Bytes} (h : strStep c t = .ok (some (bs, t'))) :
    ∃ txt, c :: t = txt ++ t' ∧ Piece txt bs := by
  unfold strStep at h
  have hsh : ∀ n, leadLen c = n → 2 ≤ n → (do return some (← shiftA (c :: t) n) : R (Option (Bytes × Bytes))) = .ok (some (bs, t')) → ∃ txt, c :: t = txt ++ t' ∧ Piece txt bs := by
    intro n hn h2 h
    match hx : shiftA (c :: t) n with
    | .ok (b, u) =>
      rw [hx] at h
      simp only [R.bind_ok, R.pure_eq, R.ok.injEq, Option.some.injEq, Prod.mk.injEq] at h
      obtain ⟨rfl, rfl⟩ := h
      exact shiftA_sound hn h2 hx
    | .err e => simp [hx] at h
    | .panic => simp [hx] at h
    | .diverge => simp [hx] at h
  split at h
  · rename_i hc
    subst hc
    match t with
    | [] => simp at h
    | e :: t =>
      simp only at h
      split at h
      · rename_i b hb
        simp only [R.pure_eq, R.ok.injEq, Option.some.injEq, Prod.mk.injEq] at h
        obtain ⟨rfl, rfl⟩ := h
        exact ⟨[0x5C, e], by simp, fun u d hu => LStr.esc _ _ _ _ ((simpleEsc_iff _ _).1 hb) hu⟩
      · split at h
        · rename_i he
          subst he
          match hx : escUnicode t with
          | .ok (b, u) =>
            rw [hx] at h
            simp only [R.bind_ok, R.pure_eq, R.ok.injEq, Option.some.injEq, Prod.mk.injEq] at h
            obtain ⟨rfl, rfl⟩ := h
            exact escUnicode_sound hx
          | .err e => simp [hx] at h
          | .panic => simp [hx] at h
          | .diverge => simp [hx] at h
        · simp at h
  · rename_i h1
    split at h
    · simp at h
    · rename_i h2
      split at h
      · rename_i h3
        simp only [R.pure_eq, R.ok.injEq, Option.some.injEq, Prod.mk.injEq] at h
        obtain ⟨rfl, rfl⟩ := h
        refine ⟨[c], by simp, fun u d hu => LStr.ascii _ _ _ ?_ h2 h1 hu⟩
        have : c.toNat ≤ 0x7F := h3
        omega
      · have hl := lead_facts c
        split at h
        · rename_i h4; exact hsh 2 (hl.1.1 h4) (by omega) h
        · split at h
          · rename_i h4; exact hsh 3 (hl.2.1.1 h4) (by omega) h
          · split at h
            · rename_i h4; exact hsh 4 (hl.2.2.1.1 h4) (by omega) h
            · simp at h

theorem strStep_none {c : UInt8} {t : Bytes} (h : strStep c t = .ok none) : c = 0x22 := by
  unfold strStep at h
  have hb : ∀ (x : R (Bytes × Bytes)), (do return some (← x) : R (Option (Bytes × Bytes))) ≠ .ok none := by
    intro x; cases x <;> simp
  split at h
  · match t with
    | [] => simp at h
    | e :: t =>
      simp only at h
      split at h
      · simp at h
      · split at h
        · exact absurd h (hb _)
        · simp at h
  · split at h
    · assumption
    · split at h
      · simp at h
      · split at h
        · exact absurd h (hb _)
        · split at h
          · exact absurd h (hb _)
          · split at h
            · exact absurd h (hb _)
            · simp at h

theorem strLoop_sound {f : Nat} {s acc d t' : Bytes} (h : strLoop f s acc = .ok (d, t')) :
    ∃ body dd, s = body ++ 0x22 :: t' ∧ d = acc ++ dd ∧ LStr body dd := by
  induction f generalizing s acc with
  | zero => simp [strLoop] at h
  | succ f ih =>
    match s with
    | [] => simp [strLoop] at h
    | c :: t =>
      simp only [strLoop] at h
      match hs : strStep c t with
      | .ok none =>
        simp only [hs, R.bind_ok, R.pure_eq, R.ok.injEq, Prod.mk.injEq] at h
        obtain ⟨rfl, rfl⟩ := h
        exact ⟨[], [], by simp [strStep_none hs], by simp, .nil⟩
      | .ok (some (bs, u)) =>
        simp only [hs, R.bind_ok] at h
        obtain ⟨txt, he, hp⟩ := strStep_sound hs
        obtain ⟨body, dd, rfl, rfl, hb⟩ := ih h
        exact ⟨txt ++ body, bs ++ dd, by rw [he]; simp, by simp, hp _ _ hb⟩
      | .err e => simp [hs] at h
      | .panic => simp [hs] at h
      | .diverge => simp [hs] at h

theorem _root_.Spec.UEsc.form {e : Bytes} {u : Nat} (h : UEsc e u) : ∃ a b c d, e = [0x5C, 0x75, a, b, c, d] ∧ hex4 a b c d = .ok u := by
  obtain ⟨a, b, c, d, x3, x2, x1, x0, rfl, hh⟩ := id h
  exact ⟨a, b, c, d, rfl, (hex4_iff _ _ _ _ _).2 h⟩

/-- what `strStep` does with a piece followed by non-empty text -/
theorem strLoop_complete {body dd : Bytes} (h : LStr body dd) : ∀ (f : Nat) (acc t' : Bytes), body.length < f →
    strLoop f (body ++ 0x22 :: t') acc = .ok (acc ++ dd, t') := by
  have step : ∀ (c : UInt8) (t u bs d : Bytes) (f : Nat) (acc t' : Bytes),
      (strStep c (t ++ (u ++ 0x22 :: t')) = .ok (some (bs, u ++ 0x22 :: t'))) →
      (∀ f acc t', u.length < f → strLoop f (u ++ 0x22 :: t') acc = .ok (acc ++ d, t')) →
      (c :: t ++ u).length < f → strLoop f (c :: t ++ u ++ 0x22 :: t') acc = .ok (acc ++ (bs ++ d), t') := by
    intro c t u bs d f acc t' h1 ih hf
    match f with
    | 0 => omega
    | f+1 =>
      have e : c :: t ++ u ++ 0x22 :: t' = c :: (t ++ (u ++ 0x22 :: t')) := by simp
      rw [e, strLoop, h1]
      simp only [R.bind_ok]
      rw [ih f _ _ (by simp at hf; omega)]; simp
  induction h with
  | nil =>
    intro f acc t' hf
    match f with
    | 0 => omega
    | f+1 => simp [strLoop, strStep]
  | ascii c t d h1 h2 h3 ht ih =>
    intro f acc t' hf
    refine step c [] t [c] d f acc t' ?_ ih hf
    have : c ≤ 0x7F := by show c.toNat ≤ 0x7F; omega
    simp [strStep, h2, h3, this]
  | multi c m t d h1 h2 ht ih =>
    intro f acc t' hf
    have e2 : (c :: m) ++ d = (c :: m) ++ d := rfl
    refine step c m t (c :: m) d f acc t' ?_ ih hf
    obtain ⟨l2, l3, l4, lx, ly, lz⟩ := lead_facts c
    have lx := lx (by omega)
    unfold strStep
    rw [if_neg lx.2.1, if_neg lx.2.2, if_neg lx.1]
    have sh : ∀ n, m.length + 1 = n → shiftA (c :: (m ++ (t ++ 0x22 :: t'))) n = .ok (c :: m, t ++ 0x22 :: t') := by
      intro n hn
      subst hn
      unfold shiftA
      rw [if_neg (by simp)]
      simp
    by_cases g2 : leadLen c = 2
    · rw [if_pos (l2.2 g2), sh 2 (by omega)]; rfl
    · rw [if_neg (fun h => g2 (l2.1 h))]
      by_cases g3 : leadLen c = 3
      · rw [if_pos (l3.2 g3), sh 3 (by omega)]; rfl
      · rw [if_neg (fun h => g3 (l3.1 h))]
        have g4 : leadLen c = 4 := by omega
        rw [if_pos (l4.2 g4), sh 4 (by omega)]; rfl
  | esc c b t d h1 ht ih =>
    intro f acc t' hf
    refine step 0x5C [c] t [b] d f acc t' ?_ ih hf
    simp only [strStep, if_true, List.cons_append, List.nil_append, (simpleEsc_iff c b).2 h1, R.pure_eq]
  | uni e r t d h1 h2 ht ih =>
    intro f acc t' hf
    obtain ⟨a, b, c, d', rfl, hx⟩ := h1.form
    refine step 0x5C [0x75, a, b, c, d'] t (utf8 r) d f acc t' ?_ ih hf
    obtain ⟨x, w, hw⟩ : ∃ x w, t ++ 0x22 :: t' = x :: w := by cases t <;> simp
    have : simpleEsc 0x75 = none := by decide
    simp only [strStep, if_true, List.cons_append, List.nil_append, this, hw, escUnicode, hx, R.bind_ok]
    rw [if_pos (by omega), runeBytes_lt h1.lt]; rfl
  | pair e1 e2 hi lo t d h1 h2 h3 h4 h5 h6 ht ih =>
    intro f acc t' hf
    obtain ⟨a, b, c, d', rfl, hx⟩ := h1.form
    obtain ⟨a2, b2, c2, d2, rfl, hx2⟩ := h2.form
    refine step 0x5C [0x75, a, b, c, d', 0x5C, 0x75, a2, b2, c2, d2] t _ d f acc t' ?_ ih hf
    obtain ⟨x, w, hw⟩ : ∃ x w, t ++ 0x22 :: t' = x :: w := by cases t <;> simp
    have : simpleEsc 0x75 = none := by decide
    have hsp := (surrogatePair_iff hi lo _).2 ⟨h5, h6, rfl⟩
    simp only [strStep, if_true, List.cons_append, List.nil_append, this, hw, escUnicode, hx, R.bind_ok]
    rw [if_neg (by omega)]
    simp only [hx2, R.bind_ok, hsp, ne_eq, not_true_eq_false, if_false, R.pure_eq]
    rw [runeBytes_ge (by omega)]

/-- strict string bodies are accepted -/
theorem _root_.Spec.StrBody.lenient {body d : Bytes} (h : StrBody body d) : LStr body d := by
  induction h with
  | nil => exact .nil
  | char r t d h1 h2 h3 h4 _ ih =>
    unfold utf8
    unfold Scalar at h1
    have e : ∀ n, n < 256 → (UInt8.ofNat n).toNat = n := fun n hn => by simp [UInt8.toNat_ofNat']; omega
    split
    · have e1 := e r (by omega)
      refine LStr.ascii _ _ _ (by omega) ?_ ?_ ih
      · intro h; rw [h] at e1; simp at e1; omega
      · intro h; rw [h] at e1; simp at e1; omega
    · split
      · have e1 := e (0xC0 + r / 64) (by omega)
        refine LStr.multi _ [_] _ _ ?_ (by simp) ih
        unfold leadLen; rw [e1, if_pos (by omega)]; rfl
      · split
        · have e1 := e (0xE0 + r / 4096) (by omega)
          refine LStr.multi _ [_, _] _ _ ?_ (by simp) ih
          unfold leadLen; rw [e1, if_neg (by omega), if_pos (by omega)]; rfl
        · have e1 := e (0xF0 + r / 262144) (by omega)
          refine LStr.multi _ [_, _, _] _ _ ?_ (by simp) ih
          unfold leadLen; rw [e1, if_neg (by omega), if_neg (by omega), if_pos (by omega)]; rfl
  | esc c b t d h _ ih => exact .esc _ _ _ _ (.inl h) ih
  | uni e r t d h1 h2 _ ih => exact .uni _ _ _ _ h1 (by unfold Scalar at h2; omega) ih
  | pair e1 e2 hi lo t d h1 h2 h3 h4 h5 h6 _ ih =>
    rw [utf8_four (by omega) (by omega)]
    exact .pair _ _ _ _ _ _ h1 h2 h3 (by omega) h5 h6 ih

end JV
