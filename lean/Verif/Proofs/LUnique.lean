import Verif.Proofs.Unambiguous
import Verif.Proofs.Errors
import Verif.Proofs.Layout
/-! A text is at most one document of the lenient grammar. -/
namespace JV
open Spec

theorem lstr_unique {b d b' d' r r' : Bytes} (h : LStr b d) (h' : LStr b' d') (he : b ++ 0x22 :: r = b' ++ 0x22 :: r') : b = b' ∧ d = d' ∧ r = r' := by
  have h1 := strLoop_complete h (b.length + b'.length + 1) [] r (by omega)
  have h2 := strLoop_complete h' (b.length + b'.length + 1) [] r' (by omega)
  rw [he, h2] at h1
  simp only [R.ok.injEq, Prod.mk.injEq, List.nil_append] at h1
  obtain ⟨rfl, rfl⟩ := h1
  exact ⟨List.append_cancel_right he, rfl, rfl⟩

/-- number tokens as far as the grammar is concerned -/
def TokShape (P : Bytes → Prop) : Prop := ∀ t, P t → (∃ c u, t = c :: u ∧ (Digit c ∨ c = 0x2D)) ∧ ∀ c ∈ t, NumChar c

theorem lval_head {P : Bytes → Prop} (hP : TokShape P) {t : Bytes} {j : J} (h : LVal P t j) : ∃ c u, t = c :: u ∧ HeadOf c j := by
  cases h with
  | null => exact ⟨_, _, rfl, rfl⟩
  | tru => exact ⟨_, _, rfl, rfl⟩
  | fls => exact ⟨_, _, rfl, rfl⟩
  | num t h => obtain ⟨c, u, rfl, hc⟩ := (hP _ h).1; exact ⟨c, u, rfl, hc⟩
  | str t d h => exact ⟨_, _, rfl, rfl⟩
  | arr t xs => exact ⟨_, _, rfl, rfl⟩
  | obj t xs => exact ⟨_, _, rfl, rfl⟩

def SepCh (c : UInt8) : Prop := c = 0x20 ∨ c = 0x0D ∨ c = 0x0A ∨ c = 0x09 ∨ c = 0x08 ∨ c = 0x2C
def BlankCh (c : UInt8) : Prop := c = 0x20 ∨ c = 0x0D ∨ c = 0x0A ∨ c = 0x09 ∨ c = 0x08

theorem head_notSep {c : UInt8} {j : J} (h : HeadOf c j) : ¬ SepCh c ∧ c ≠ 0x5D ∧ c ≠ 0x7D := by
  have h1 := head_notWs h
  refine ⟨?_, h1.2⟩
  rintro (rfl | rfl | rfl | rfl | rfl | rfl)
  · exact h1.1 (by simp [WsCh])
  · exact h1.1 (by simp [WsCh])
  · exact h1.1 (by simp [WsCh])
  · exact h1.1 (by simp [WsCh])
  · cases j <;> simp only [HeadOf] at h
    · cases h
    · rename_i b; cases b <;> cases h
    · unfold Digit at h; revert h; decide
    · cases h
    · cases h
    · cases h
  · cases j <;> simp only [HeadOf] at h
    · cases h
    · rename_i b; cases b <;> cases h
    · unfold Digit at h; revert h; decide
    · cases h
    · cases h
    · cases h

theorem sep_split {s s' x x' : Bytes} (h : Spec.Sep s) (h' : Spec.Sep s') (hx : ∀ c u, x = c :: u → ¬ SepCh c) (hx' : ∀ c u, x' = c :: u → ¬ SepCh c)
    (he : s ++ x = s' ++ x') : s = s' ∧ x = x' := munch (P := SepCh) h h' hx hx' he

theorem blank_split {s s' x x' : Bytes} (h : Blank s) (h' : Blank s') (hx : ∀ c u, x = c :: u → ¬ BlankCh c) (hx' : ∀ c u, x' = c :: u → ¬ BlankCh c)
    (he : s ++ x = s' ++ x') : s = s' ∧ x = x' := munch (P := BlankCh) h h' hx hx' he

theorem notSepB : ¬ SepCh 0x5D ∧ ¬ SepCh 0x7D ∧ ¬ SepCh 0x22 ∧ ¬ BlankCh 0x3A := by unfold SepCh BlankCh; decide

theorem lval_nosep {P : Bytes → Prop} (hP : TokShape P) {t : Bytes} {j : J} (h : LVal P t j) (r : Bytes) : ∀ c u, t ++ r = c :: u → ¬ SepCh c ∧ c ≠ 0x5D := by
  obtain ⟨c, u, rfl, hc⟩ := lval_head hP h
  intro c' u' he; cases he
  exact ⟨(head_notSep hc).1, (head_notSep hc).2.1⟩

theorem sep_notBlank {c : UInt8} (h : ¬ SepCh c) : ¬ BlankCh c := fun hb => h (by rcases hb with h | h | h | h | h <;> simp [SepCh, h])

theorem head_eq {c : UInt8} {j j' : J} (n1 : ∀ xs, j ≠ .arr xs) (n2 : ∀ xs, j ≠ .obj xs) (n3 : ∀ xs, j ≠ .num xs) (n4 : ∀ xs, j ≠ .str xs)
    (hc : HeadOf c j) (hc' : HeadOf c j') : j = j' := by
  have hk := head_kind hc hc'
  cases j with
  | null => cases j' <;> first | rfl | exact absurd hk (by simp)
  | bool b => cases j' <;> first | (simp only at hk; rw [hk]; done) | exact absurd hk (by simp)
  | num t => exact absurd rfl (n3 t)
  | str t => exact absurd rfl (n4 t)
  | arr t => exact absurd rfl (n1 t)
  | obj t => exact absurd rfl (n2 t)

/-- the value at the beginning of a text is determined by the text -/
theorem lval_unique {P : Bytes → Prop} (hP : TokShape P) {t : Bytes} {j : J} (h : LVal P t j) :
    ∀ (t' : Bytes) (j' : J) (r r' : Bytes), LVal P t' j' → Follow j r → Follow j' r' → t ++ r = t' ++ r' → t = t' ∧ j = j' := by
  have lit : ∀ (a : Bytes) (j : J) (r : Bytes), LVal P a j → (∀ t', LVal P t' j → t' = a) → (∀ xs, j ≠ .arr xs) → (∀ xs, j ≠ .obj xs) → (∀ xs, j ≠ .num xs) →
      (∀ xs, j ≠ .str xs) → ∀ (t' : Bytes) (j' : J) (r' : Bytes), LVal P t' j' → a ++ r = t' ++ r' → a = t' ∧ j = j' := by
    intro a j r ha hu n1 n2 n3 n4 t' j' r' h' he
    obtain ⟨c, u, rfl, hc⟩ := lval_head hP ha
    obtain ⟨c', u', rfl, hc'⟩ := lval_head hP h'
    obtain rfl : c = c' := by simp at he; exact he.1
    have hjj := head_eq n1 n2 n3 n4 hc hc'
    exact ⟨(hu _ (hjj ▸ h')).symm, hjj⟩
  refine @LVal.rec P
    (fun t j _ => ∀ (t' : Bytes) (j' : J) (r r' : Bytes), LVal P t' j' → Follow j r → Follow j' r' → t ++ r = t' ++ r' → t = t' ∧ j = j')
    (fun t xs _ => ∀ (t' : Bytes) (xs' : List J) (r r' : Bytes), LElems P t' xs' → t ++ r = t' ++ r' → t = t' ∧ xs = xs')
    (fun t ms _ => ∀ (t' : Bytes) (ms' : List Mem) (r r' : Bytes), LMems P t' ms' → t ++ r = t' ++ r' → t = t' ∧ ms = ms')
    ?null ?tru ?fls ?num ?str ?arr ?obj ?enil ?econs ?mnil ?mcons t j h
  case null => exact fun t' j' r r' h' _ _ he => lit _ _ r .null (fun _ h => by cases h; rfl) (by simp) (by simp) (by simp) (by simp) t' j' r' h' he
  case tru => exact fun t' j' r r' h' _ _ he => lit _ _ r .tru (fun _ h => by cases h; rfl) (by simp) (by simp) (by simp) (by simp) t' j' r' h' he
  case fls => exact fun t' j' r r' h' _ _ he => lit _ _ r .fls (fun _ h => by cases h; rfl) (by simp) (by simp) (by simp) (by simp) t' j' r' h' he
  case num =>
    intro t ht t' j' r r' h' hf hf' he
    obtain ⟨c, u, rfl, hc⟩ := (hP _ ht).1
    obtain ⟨c', u', rfl, hc'⟩ := lval_head hP h'
    obtain rfl : c = c' := by simp at he; exact he.1
    have hk := head_kind (j := .num (c :: u)) hc hc'
    cases h' with
    | num _ ht' =>
      have := (munch (hP _ ht).2 (hP _ ht').2 hf hf' he).1
      exact ⟨this, by rw [this]⟩
    | _ => simp at hk
  case str =>
    intro t d ht t' j' r r' h' hf hf' he
    obtain ⟨c', u', e, hc'⟩ := lval_head hP h'
    have hcc : c' = 0x22 := by rw [e] at he; simp at he; exact he.1.symm
    have hk := head_kind (c := 0x22) (j := .str d) rfl (hcc ▸ hc')
    cases h' with
    | str t2 d2 ht2 =>
      simp only [List.cons_append, List.cons.injEq, true_and, List.append_assoc, List.nil_append] at he
      obtain ⟨rfl, rfl, -⟩ := lstr_unique ht ht2 he
      exact ⟨rfl, rfl⟩
    | _ => simp at hk
  case arr =>
    intro t xs _ ih t' j' r r' h' hf hf' he
    obtain ⟨c', u', e, hc'⟩ := lval_head hP h'
    have hcc : c' = 0x5B := by rw [e] at he; simp at he; exact he.1.symm
    have hk := head_kind (c := 0x5B) (j := .arr xs) rfl (hcc ▸ hc')
    cases h' with
    | arr t2 xs2 h2 =>
      simp only [List.cons_append, List.cons.injEq, true_and] at he
      obtain ⟨rfl, rfl⟩ := ih t2 xs2 r r' h2 he
      exact ⟨rfl, rfl⟩
    | _ => simp at hk
  case obj =>
    intro t xs _ ih t' j' r r' h' hf hf' he
    obtain ⟨c', u', e, hc'⟩ := lval_head hP h'
    have hcc : c' = 0x7B := by rw [e] at he; simp at he; exact he.1.symm
    have hk := head_kind (c := 0x7B) (j := .obj xs) rfl (hcc ▸ hc')
    cases h' with
    | obj t2 xs2 h2 =>
      simp only [List.cons_append, List.cons.injEq, true_and] at he
      obtain ⟨rfl, rfl⟩ := ih t2 xs2 r r' h2 he
      exact ⟨rfl, rfl⟩
    | _ => simp at hk
  case enil =>
    intro s hs t' xs' r r' h' he
    cases h' with
    | nil s' hs' =>
      simp only [List.append_assoc, List.cons_append, List.nil_append] at he
      have := (sep_split hs hs' (by intro c u h; cases h; exact notSepB.1) (by intro c u h; cases h; exact notSepB.1) he).1
      exact ⟨by rw [this], rfl⟩
    | cons s' t2 ts v vs hs' hv _ _ =>
      simp only [List.append_assoc, List.cons_append, List.nil_append] at he
      have := (sep_split hs hs' (by intro c u h; cases h; exact notSepB.1) (fun c u h => (lval_nosep hP hv _ c u h).1) he).2
      exact absurd rfl ((lval_nosep hP hv _ _ _ this.symm).2)
  case econs =>
    intro s t ts v vs hs hv hvs hF ih ihs t' xs' r r' h' he
    cases h' with
    | nil s' hs' =>
      simp only [List.append_assoc, List.cons_append, List.nil_append] at he
      have := (sep_split hs hs' (fun c u h => (lval_nosep hP hv _ c u h).1) (by intro c u h; cases h; exact notSepB.1) he).2
      exact absurd rfl ((lval_nosep hP hv _ _ _ this).2)
    | cons s' t2 ts2 v2 vs2 hs' hv2 hvs2 hF2 =>
      simp only [List.append_assoc] at he
      obtain ⟨rfl, hx⟩ := sep_split hs hs' (fun c u h => (lval_nosep hP hv _ c u h).1) (fun c u h => (lval_nosep hP hv2 _ c u h).1) he
      clear he; have he := hx; clear hx
      have ne1 : ts ≠ [] := by cases hvs <;> simp <;> (intro _ h; obtain ⟨c, u, rfl, -⟩ := lval_head hP (by assumption); cases h)
      have ne2 : ts2 ≠ [] := by cases hvs2 <;> simp <;> (intro _ h; obtain ⟨c, u, rfl, -⟩ := lval_head hP (by assumption); cases h)
      obtain ⟨rfl, rfl⟩ := ih t2 v2 (ts ++ r) (ts2 ++ r') hv2 ((Follow_app ne1).2 hF) ((Follow_app ne2).2 hF2) he
      obtain ⟨rfl, rfl⟩ := ihs ts2 vs2 r r' hvs2 (List.append_cancel_left he)
      exact ⟨rfl, rfl⟩
  case mnil =>
    intro s hs t' xs' r r' h' he
    cases h' with
    | nil s' hs' =>
      simp only [List.append_assoc, List.cons_append, List.nil_append] at he
      have := (sep_split hs hs' (by intro c u h; cases h; exact notSepB.2.1) (by intro c u h; cases h; exact notSepB.2.1) he).1
      exact ⟨by rw [this], rfl⟩
    | cons s' k b1 b2 t2 ts d v vs hs' hk hb1 hb2 hv _ _ =>
      simp only [List.append_assoc, List.cons_append, List.nil_append] at he
      have := (sep_split hs hs' (by intro c u h; cases h; exact notSepB.2.1) (by intro c u h; cases h; exact notSepB.2.2.1) he).2
      simp at this
  case mcons =>
    intro s k b1 b2 t ts d v vs hs hk hb1 hb2 hv hvs hF ih ihs t' xs' r r' h' he
    cases h' with
    | nil s' hs' =>
      simp only [List.append_assoc, List.cons_append, List.nil_append] at he
      have := (sep_split hs hs' (by intro c u h; cases h; exact notSepB.2.2.1) (by intro c u h; cases h; exact notSepB.2.1) he).2
      simp at this
    | cons s' k' b1' b2' t2 ts2 d2 v2 vs2 hs' hk' hb1' hb2' hv2 hvs2 hF2 =>
      simp only [List.append_assoc, List.cons_append, List.nil_append] at he
      obtain ⟨rfl, hx⟩ := sep_split hs hs' (by intro c u h; cases h; exact notSepB.2.2.1) (by intro c u h; cases h; exact notSepB.2.2.1) he
      clear he; have he := hx; clear hx
      simp only [List.cons.injEq, true_and] at he
      obtain ⟨rfl, rfl, hx⟩ := lstr_unique hk hk' he
      clear he; have he := hx; clear hx
      obtain ⟨rfl, hx⟩ := blank_split hb1 hb1' (by intro c u h; cases h; exact notSepB.2.2.2) (by intro c u h; cases h; exact notSepB.2.2.2) he
      clear he; have he := hx; clear hx
      simp only [List.cons.injEq, true_and] at he
      obtain ⟨rfl, hx⟩ := blank_split hb2 hb2' (fun c u h => sep_notBlank (lval_nosep hP hv _ c u h).1) (fun c u h => sep_notBlank (lval_nosep hP hv2 _ c u h).1) he
      clear he; have he := hx; clear hx
      have ne1 : ts ≠ [] := by cases hvs <;> simp
      have ne2 : ts2 ≠ [] := by cases hvs2 <;> simp
      obtain ⟨rfl, rfl⟩ := ih t2 v2 (ts ++ r) (ts2 ++ r') hv2 ((Follow_app ne1).2 hF) ((Follow_app ne2).2 hF2) he
      obtain ⟨rfl, rfl⟩ := ihs ts2 vs2 r r' hvs2 (List.append_cancel_left he)
      exact ⟨rfl, rfl⟩

/-- a text is at most one document -/
theorem ltext_unique {P : Bytes → Prop} (hP : TokShape P) {s : Bytes} {j j' : J} (h : LText P s j) (h' : LText P s j') : j = j' := by
  obtain ⟨b1, t, b2, rfl, hb1, hv, hb2⟩ := h
  obtain ⟨b1', t', b2', he, hb1', hv', hb2'⟩ := h'
  simp only [List.append_assoc] at he
  obtain ⟨rfl, hx⟩ := blank_split hb1 hb1' (fun c u h => sep_notBlank (lval_nosep hP hv _ c u h).1) (fun c u h => sep_notBlank (lval_nosep hP hv' _ c u h).1) he
  clear he; have he := hx; clear hx
  exact (lval_unique hP hv t' j' b2 b2' hv' (Follow_blank hb2) (Follow_blank hb2') he).2

end JV
