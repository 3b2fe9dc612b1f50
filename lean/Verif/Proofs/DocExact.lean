import Verif.Proofs.LUnique
import Verif.Proofs.StdGrammar
import Verif.Proofs.Marshal
/-! Exactly when the text of a document of tokens is JSON. -/
namespace JV
open Spec

/-- tokens as Marshal writes them; the text of a number may be empty or wrong -/
inductive Tok : Doc → Prop
  | null : Tok (.leaf nullText)
  | bool (b) : Tok (.leaf (formatBool b))
  | num (t) : (∀ c ∈ t, NumChar c) → Tok (.leaf t)
  | str (t d) : LStr t d → QGood t → Tok (.leaf (0x22 :: t ++ [0x22]))
  | arrNil : Tok (.leaf [0x5B, 0x5D])
  | objNil : Tok (.leaf [0x7B, 0x7D])
  | arr (xs) : xs ≠ [] → (∀ x ∈ xs, Tok x) → Tok (.arr xs)
  | obj (ms) : (∀ m ∈ ms, ∃ d, LStr (DMem.key m) d) → (∀ m ∈ ms, QGood (DMem.key m)) → (∀ m ∈ ms, Tok (DMem.v m)) → Tok (.obj ms)

/-- what JSON texts come from: every token is right, or an array has nothing but a token without text -/
inductive DocX : Doc → J → Prop
  | null : DocX (.leaf nullText) .null
  | bool (b) : DocX (.leaf (formatBool b)) (.bool b)
  | num (t) : JNum t → DocX (.leaf t) (.num t)
  | str (t d) : StrBody t d → DocX (.leaf (0x22 :: t ++ [0x22])) (.str d)
  | arrNil : DocX (.leaf [0x5B, 0x5D]) (.arr [])
  | objNil : DocX (.leaf [0x7B, 0x7D]) (.obj [])
  | lone : DocX (.arr [.leaf []]) (.arr [])
  | arr (xs js) : xs ≠ [] → js.length = xs.length → (∀ (i : Nat) x j, xs[i]? = some x → js[i]? = some j → DocX x j) → DocX (.arr xs) (.arr js)
  | obj (ms es) : Commas ms → es.length = ms.length → (∀ (i : Nat) m e, ms[i]? = some m → es[i]? = some e → StrBody (DMem.key m) e.key) →
      (∀ (i : Nat) m e, ms[i]? = some m → es[i]? = some e → DocX (DMem.v m) e.v) → DocX (.obj ms) (.obj es)

theorem docX_strict {ind : Option (Bytes × Bytes)} (hi : WsIndent ind) {d : Doc} {j : J} (h : DocX d j) : ∀ n, JVal (d.print ind n) j := by
  induction h with
  | null => intro n; exact .null
  | bool b => intro n; cases b; exact .fls; exact .tru
  | num t ht => intro n; exact .num t ht
  | str t d ht => intro n; exact .str _ _ ⟨t, rfl, ht⟩
  | arrNil => intro n; exact .arrNil [] ws_nil
  | objNil => intro n; exact .objNil [] ws_nil
  | lone =>
    intro n
    have := JVal.arrNil (nl ind (n + 1) ++ nl ind n) (ws_append (nl_ws hi _) (nl_ws hi _))
    simpa [Doc.print, printElems] using this
  | arr xs js hne hl _ ih =>
    intro n
    unfold Doc.print
    exact .arr _ _ (elems_strict hi (n + 1) xs js _ hne hl (nl_ws hi n) fun i x j hx hj => ih i x j hx hj (n + 1))
  | obj ms es hC hl hk _ ih =>
    intro n
    unfold Doc.print
    cases ms with
    | nil =>
      have : es = [] := by simpa using hl
      subst this
      unfold printMems
      exact .objNil _ (nl_ws hi n)
    | cons m ms =>
      exact .obj _ _ (mems_strict hi (n + 1) (m :: ms) es _ (by simp) hl (nl_ws hi n) hC hk fun i x j hx hj => ih i x j hx hj (n + 1))

/-- what follows a value in JSON -/
def Stop (r : Bytes) : Prop := ∃ w x, r = w ++ x ∧ Ws w ∧ (x = [] ∨ ∃ c u, x = c :: u ∧ (c = 0x2C ∨ c = 0x5D ∨ c = 0x7D))

/-- what follows a value in the output: also a key, where the comma is missing -/
def After (r : Bytes) : Prop := Stop r ∨ ∃ w k d u, r = w ++ (0x22 :: (k ++ 0x22 :: 0x3A :: u)) ∧ Ws w ∧ LStr k d

theorem numEnd_wsCons {w : Bytes} (h : Ws w) {x : Bytes} (hx : NumEnd x) : NumEnd (w ++ x) := by
  cases w with
  | nil => exact hx
  | cons a w =>
    intro c t' he
    obtain ⟨rfl, -⟩ : a = c ∧ _ := by simpa using he
    exact numEnd_wsOnly (w := [a]) (fun c hc => h c (by simp at hc; simp [hc])) a [] rfl

theorem Stop.numEnd {r : Bytes} (h : Stop r) : NumEnd r := by
  obtain ⟨w, x, rfl, hw, rfl | ⟨c, u, rfl, hc⟩⟩ := h
  · simpa using numEnd_wsOnly hw
  · refine numEnd_wsCons hw (numEnd_cons ?_)
    rcases hc with rfl | rfl | rfl
    · exact notNumChar.2.2
    · exact notNumChar.1
    · exact notNumChar.2.1

theorem After.numEnd {r : Bytes} (h : After r) : NumEnd r := by
  rcases h with h | ⟨w, k, d, u, rfl, hw, -⟩
  · exact h.numEnd
  · exact numEnd_wsCons hw (numEnd_cons (by unfold NumChar Digit; decide))

theorem numChar_notWs {c : UInt8} (h : NumChar c) : ¬ WsCh c := by
  intro hw
  unfold NumChar Digit at h
  rcases hw with rfl | rfl | rfl | rfl <;> revert h <;> decide

theorem head_numChar {c : UInt8} {j : J} (h : HeadOf c j) (hc : NumChar c) : ∃ t, j = .num t := by
  cases j with
  | num t => exact ⟨t, rfl⟩
  | bool b => exfalso; cases b <;> (simp only [HeadOf] at h; subst h; unfold NumChar Digit at hc; revert hc; decide)
  | _ => exfalso; simp only [HeadOf] at h; subst h; unfold NumChar Digit at hc; revert hc; decide

theorem jval_str_inv {t : Bytes} {j : J} (h : JVal t j) {u : Bytes} (ht : t = 0x22 :: u) : ∃ b d, j = .str d ∧ t = 0x22 :: (b ++ [0x22]) ∧ StrBody b d := by
  obtain ⟨c, u', e, hc⟩ := jval_head h
  obtain rfl : c = 0x22 := by rw [ht] at e; cases e; rfl
  have hk := head_kind (c := 0x22) (j := .str []) rfl hc
  cases h with
  | str _ d h => obtain ⟨b, rfl, hb⟩ := h; exact ⟨b, d, rfl, by simp, hb⟩
  | _ => simp at hk

theorem jval_num_inv {t t' : Bytes} (h : JVal t (.num t')) : t = t' ∧ JNum t := by
  cases h with | num _ h => exact ⟨rfl, h⟩

theorem jval_notStop {t : Bytes} {j : J} (h : JVal t j) {c : UInt8} {u r : Bytes} (he : c :: u = t ++ r) : c ≠ 0x2C ∧ c ≠ 0x5D ∧ c ≠ 0x7D ∧ ¬ WsCh c := by
  obtain ⟨c', u', rfl, hc⟩ := jval_head h
  cases he
  have := head_notSep hc
  refine ⟨?_, this.2.1, this.2.2, (head_notWs hc).1⟩
  rintro rfl; exact this.1 (by simp [SepCh])

/-- nothing cannot stand for a value -/
theorem hole_bad {w w1 t r r' : Bytes} {j : J} (hw : Ws w) (hw1 : Ws w1) (h : JVal t j) (hr : After r) (hr' : Stop r') (he : w ++ r = w1 ++ (t ++ r')) : False := by
  rcases hr with ⟨wr, x, rfl, hwr, rfl | ⟨c, u, rfl, hc⟩⟩ | ⟨wr, k, d, u, rfl, hwr, hk⟩
  · obtain ⟨c, u, rfl, hc⟩ := jval_head h
    have : c ∈ w ++ (wr ++ []) := by rw [he]; simp
    simp only [List.append_nil, List.mem_append] at this
    exact (head_notWs hc).1 (this.elim (hw c) (hwr c))
  · rw [← List.append_assoc] at he
    have hcw : ¬ WsCh c := by rcases hc with rfl | rfl | rfl <;> (unfold WsCh; decide)
    have := (ws_split (ws_append hw hwr) hw1 (solid_cons hcw u) (jval_solid h r') he).2
    have := jval_notStop h this
    rcases hc with rfl | rfl | rfl <;> simp at this
  · rw [← List.append_assoc] at he
    have := (ws_split (ws_append hw hwr) hw1 (solid_cons (by unfold WsCh; decide) _) (jval_solid h r') he).2
    obtain ⟨c, u', e, hc⟩ := jval_head h
    have hc2 : c = 0x22 := by rw [e] at this; simp at this; exact this.1.symm
    subst hc2
    obtain ⟨b, d', rfl, rfl, hb⟩ := jval_str_inv h e
    simp only [List.cons_append, List.cons.injEq, true_and, List.append_assoc, List.nil_append] at this
    obtain ⟨-, -, rfl⟩ := lstr_unique hk hb.lenient this
    obtain ⟨w', x, e, hw', hx⟩ := hr'
    cases w' with
    | nil =>
      rcases hx with rfl | ⟨c, v, rfl, hc⟩
      · simp at e
      · simp at e; obtain ⟨rfl, -⟩ := e; simp at hc
    | cons a w' =>
      simp at e
      have := hw' a (by simp)
      rw [← e.1] at this
      simp at this

/-- what must be shown for a document -/
def Exact (ind : Option (Bytes × Bytes)) (d : Doc) : Prop :=
  ∀ n w w1 t j r r', Ws w → Ws w1 → JVal t j → After r → Stop r' → w ++ (d.print ind n ++ r) = w1 ++ (t ++ r') → w = w1 ∧ r = r' ∧ d ≠ .leaf [] ∧ DocX d j

theorem exact_leaf {ind : Option (Bytes × Bytes)} {a : Bytes} {j0 : J} (hx : DocX (.leaf a) j0) (hv : JVal a j0) : Exact ind (.leaf a) := by
  intro n w w1 t j r r' hw hw1 h hr hr' he
  unfold Doc.print at he
  obtain ⟨rfl, h2⟩ := ws_split hw hw1 (jval_solid hv r) (jval_solid h r') he
  obtain ⟨rfl, rfl⟩ := jval_unique hv t j r r' h hr.numEnd hr'.numEnd h2
  refine ⟨rfl, List.append_cancel_left h2, ?_, hx⟩
  intro he
  cases he
  obtain ⟨c, u, h, -⟩ := jval_head hv
  cases h

theorem exact_num {ind : Option (Bytes × Bytes)} {a : Bytes} (ha : ∀ c ∈ a, NumChar c) : Exact ind (.leaf a) := by
  intro n w w1 t j r r' hw hw1 h hr hr' he
  unfold Doc.print at he
  cases a with
  | nil => exact (hole_bad hw hw1 h hr hr' he).elim
  | cons c a =>
    obtain ⟨rfl, h2⟩ := ws_split hw hw1 (x := c :: a ++ r) (solid_cons (numChar_notWs (ha c (by simp))) (a ++ r)) (jval_solid h r') he
    obtain ⟨c', u, rfl, hc'⟩ := jval_head h
    obtain rfl : c = c' := by simp at h2; exact h2.1
    obtain ⟨t', rfl⟩ := head_numChar hc' (ha c (by simp))
    obtain ⟨rfl, hj⟩ := jval_num_inv h
    obtain ⟨h3, h4⟩ := munch ha (jnum_shape hj).2 hr.numEnd hr'.numEnd h2
    rw [← h3] at hj ⊢
    exact ⟨rfl, h4, by simp, .num _ hj⟩

theorem exact_str {ind : Option (Bytes × Bytes)} {a d : Bytes} (ha : LStr a d) : Exact ind (.leaf (0x22 :: a ++ [0x22])) := by
  intro n w w1 t j r r' hw hw1 h hr hr' he
  unfold Doc.print at he
  obtain ⟨rfl, h2⟩ := ws_split hw hw1 (x := 0x22 :: a ++ [0x22] ++ r) (solid_cons (by unfold WsCh; decide) (a ++ [0x22] ++ r)) (jval_solid h r') he
  obtain ⟨c', u, e, hc'⟩ := jval_head h
  have hc2 : c' = 0x22 := by rw [e] at h2; simp at h2; exact h2.1.symm
  subst hc2
  obtain ⟨b, d', rfl, rfl, hb⟩ := jval_str_inv h e
  simp only [List.cons_append, List.cons.injEq, true_and, List.append_assoc, List.nil_append] at h2
  obtain ⟨rfl, rfl, rfl⟩ := lstr_unique ha hb.lenient h2
  exact ⟨rfl, rfl, by simp, .str _ _ hb⟩

theorem stop_of {w : Bytes} (hw : Ws w) {c : UInt8} (hc : c = 0x2C ∨ c = 0x5D ∨ c = 0x7D) (u : Bytes) : Stop (w ++ c :: u) :=
  ⟨w, c :: u, rfl, hw, .inr ⟨c, u, rfl, hc⟩⟩

theorem ws_clash {w w' : Bytes} (hw : Ws w) (hw' : Ws w') {c c' : UInt8} (hc : ¬ WsCh c) (hc' : ¬ WsCh c') {u u' : Bytes} (he : w ++ c :: u = w' ++ c' :: u') :
    w = w' ∧ c = c' ∧ u = u' := by
  obtain ⟨h1, h2⟩ := ws_split hw hw' (solid_cons hc u) (solid_cons hc' u') he
  simp at h2
  exact ⟨h1, h2⟩

theorem notWs2 : ¬ WsCh 0x22 := by unfold WsCh; decide

/-- the elements of an array against a list of JSON elements -/
theorem elems_exact {ind : Option (Bytes × Bytes)} (hi : WsIndent ind) (d n : Nat) {u : Bytes} {js : List J} (h : JElems u js) : ∀ (x : Doc) (xs : List Doc) (r r' : Bytes),
    (∀ y ∈ x :: xs, Exact ind y) → nl ind d ++ (x.print ind d ++ (printElems ind d false xs ++ (nl ind n ++ 0x5D :: r))) = u ++ 0x5D :: r' →
    r = r' ∧ js.length = xs.length + 1 ∧ ∀ (i : Nat) y j, (x :: xs)[i]? = some y → js[i]? = some j → DocX y j := by
  induction js generalizing u with
  | nil => cases h
  | cons j js ih =>
    intro x xs r r' hX he
    have hA : Stop (printElems ind d false xs ++ (nl ind n ++ 0x5D :: r)) := by
      cases xs with
      | nil => simp only [printElems, List.nil_append]; exact stop_of (nl_ws hi n) (.inr (.inl rfl)) r
      | cons y xs => simp only [printElems, Bool.false_eq_true, if_false, List.cons_append, List.nil_append]; exact stop_of ws_nil (.inl rfl) _
    cases h with
    | one w1 t w2 _ h1 hv h2 =>
      simp only [List.append_assoc] at he
      obtain ⟨-, h4, -, h5⟩ := hX x (by simp) d (nl ind d) w1 t j _ (w2 ++ 0x5D :: r') (nl_ws hi d) h1 hv (.inl hA) (stop_of h2 (.inr (.inl rfl)) r') he
      cases xs with
      | nil =>
        simp only [printElems, List.nil_append] at h4
        obtain ⟨-, -, rfl⟩ := ws_clash (nl_ws hi n) h2 notWs.1 notWs.1 h4
        refine ⟨rfl, rfl, ?_⟩
        intro i y j' hy hj
        cases i with
        | zero => simp at hy hj; subst hy hj; exact h5
        | succ i => simp at hy
      | cons y xs =>
        simp only [printElems, Bool.false_eq_true, if_false, List.cons_append, List.nil_append] at h4
        have := (ws_clash ws_nil h2 notWs.2.2.1 notWs.1 h4).2.1
        cases this
    | cons w1 t w2 ts _ _ h1 hv h2 hs =>
      simp only [List.append_assoc, List.cons_append] at he
      obtain ⟨-, h4, -, h5⟩ := hX x (by simp) d (nl ind d) w1 t j _ (w2 ++ 0x2C :: (ts ++ 0x5D :: r')) (nl_ws hi d) h1 hv (.inl hA) (stop_of h2 (.inl rfl) _) he
      cases xs with
      | nil =>
        simp only [printElems, List.nil_append] at h4
        have := (ws_clash (nl_ws hi n) h2 notWs.1 notWs.2.2.1 h4).2.1
        cases this
      | cons y xs =>
        simp only [printElems, Bool.false_eq_true, if_false, List.cons_append, List.nil_append, List.append_assoc] at h4
        have h6 := (ws_clash ws_nil h2 notWs.2.2.1 notWs.2.2.1 h4).2.2
        obtain ⟨rfl, h7, h8⟩ := ih hs y xs r r' (fun z hz => hX z (by simp at hz; simp [hz])) h6
        refine ⟨rfl, by simp [h7], ?_⟩
        intro i z j' hz hj
        cases i with
        | zero => simp at hz hj; subst hz hj; exact h5
        | succ i => exact h8 i z j' (by simpa using hz) (by simpa using hj)

/-- the members of an object against a list of JSON members -/
theorem mems_exact {ind : Option (Bytes × Bytes)} (hi : WsIndent ind) (d n : Nat) {u : Bytes} {es : List Mem} (h : JMems u es) : ∀ (k : Bytes) (v : Doc) (ms : List DMem) (r r' : Bytes),
    (∃ d, LStr k d) → Exact ind v → (∀ y ∈ ms, ∃ d, LStr (DMem.key y) d) → (∀ y ∈ ms, Exact ind (DMem.v y)) →
    nl ind d ++ (0x22 :: (k ++ (0x22 :: 0x3A :: ((if ind.isSome then [0x20] else []) ++ (v.print ind d ++ (printMems ind d ms ++ (nl ind n ++ 0x7D :: r))))))) = u ++ 0x7D :: r' →
    r = r' ∧ es.length = ms.length + 1 ∧ (∀ x ∈ ms, DMem.comma x = true) ∧ ∀ c (i : Nat) y e, (DMem.mk c k v :: ms)[i]? = some y → es[i]? = some e → StrBody (DMem.key y) e.key ∧ DocX (DMem.v y) e.v := by
  induction es generalizing u with
  | nil => cases h
  | cons e es ih =>
    intro k v ms r r' hk hv hks hvs he
    obtain ⟨dk, hk⟩ := hk
    have hA : After (printMems ind d ms ++ (nl ind n ++ 0x7D :: r)) := by
      cases ms with
      | nil => simp only [printMems, List.nil_append]; exact .inl (stop_of (nl_ws hi n) (.inr (.inr rfl)) r)
      | cons y ms =>
        obtain ⟨c, k', v'⟩ := y
        cases c
        · obtain ⟨d', hk'⟩ := hks _ List.mem_cons_self
          have e1 : printMems ind d (DMem.mk false k' v' :: ms) ++ (nl ind n ++ 0x7D :: r) =
              nl ind d ++ (0x22 :: (k' ++ 0x22 :: 0x3A :: ((if ind.isSome then [0x20] else []) ++ (v'.print ind d ++ (printMems ind d ms ++ (nl ind n ++ 0x7D :: r)))))) := by
            simp only [printMems, Bool.false_eq_true, if_false, List.cons_append, List.nil_append, List.append_assoc]
          exact .inr ⟨nl ind d, k', d', _, e1, nl_ws hi d, hk'⟩
        · simp only [printMems, if_true, List.cons_append, List.nil_append]; exact .inl (stop_of ws_nil (.inl rfl) _)
    cases h with
    | one w1 kk w2 w3 t w4 dd j h1 hkk h2 h3 hj h4 =>
      obtain ⟨b, rfl, hb⟩ := hkk
      simp only [List.append_assoc, List.cons_append, List.nil_append] at he
      have g1 := (ws_clash (nl_ws hi d) h1 notWs2 notWs2 he).2.2
      obtain ⟨rfl, rfl, g2⟩ := lstr_unique hk hb.lenient g1
      have g3 := (ws_clash (w := []) ws_nil h2 notWs.2.2.2 notWs.2.2.2 g2).2.2
      obtain ⟨-, g4, -, g5⟩ := hv d _ w3 t j _ (w4 ++ 0x7D :: r') (space_ws _) h3 hj hA (stop_of h4 (.inr (.inr rfl)) r') g3
      cases ms with
      | nil =>
        simp only [printMems, List.nil_append] at g4
        obtain ⟨-, -, rfl⟩ := ws_clash (nl_ws hi n) h4 notWs.2.1 notWs.2.1 g4
        refine ⟨rfl, rfl, by simp, ?_⟩
        intro c i y e' hy he'
        cases i with
        | zero => simp at hy he'; subst hy he'; exact ⟨hb, g5⟩
        | succ i => simp at hy
      | cons y ms =>
        exfalso
        obtain ⟨c, k', v'⟩ := y
        cases c
        · simp only [printMems, Bool.false_eq_true, if_false, List.cons_append, List.nil_append, List.append_assoc] at g4
          have := (ws_clash (nl_ws hi d) h4 notWs2 notWs.2.1 g4).2.1
          cases this
        · simp only [printMems, if_true, List.cons_append, List.nil_append] at g4
          have := (ws_clash (w := []) ws_nil h4 notWs.2.2.1 notWs.2.1 g4).2.1
          cases this
    | cons w1 kk w2 w3 t w4 dd ts j _ h1 hkk h2 h3 hj h4 hs =>
      obtain ⟨b, rfl, hb⟩ := hkk
      simp only [List.append_assoc, List.cons_append, List.nil_append] at he
      have g1 := (ws_clash (nl_ws hi d) h1 notWs2 notWs2 he).2.2
      obtain ⟨rfl, rfl, g2⟩ := lstr_unique hk hb.lenient g1
      have g3 := (ws_clash (w := []) ws_nil h2 notWs.2.2.2 notWs.2.2.2 g2).2.2
      obtain ⟨-, g4, -, g5⟩ := hv d _ w3 t j _ (w4 ++ 0x2C :: (ts ++ 0x7D :: r')) (space_ws _) h3 hj hA (stop_of h4 (.inl rfl) _) g3
      cases ms with
      | nil =>
        exfalso
        simp only [printMems, List.nil_append] at g4
        have := (ws_clash (nl_ws hi n) h4 notWs.2.1 notWs.2.2.1 g4).2.1
        cases this
      | cons y ms =>
        obtain ⟨c, k', v'⟩ := y
        cases c
        · exfalso
          simp only [printMems, Bool.false_eq_true, if_false, List.cons_append, List.nil_append, List.append_assoc] at g4
          have := (ws_clash (nl_ws hi d) h4 notWs2 notWs.2.2.1 g4).2.1
          cases this
        · simp only [printMems, if_true, List.cons_append, List.nil_append, List.append_assoc] at g4
          have g6 := (ws_clash (w := []) ws_nil h4 notWs.2.2.1 notWs.2.2.1 g4).2.2
          obtain ⟨rfl, g7, g8, g9⟩ := ih hs k' v' ms r r' (hks _ List.mem_cons_self) (hvs _ List.mem_cons_self) (fun y hy => hks y (List.mem_cons_of_mem _ hy))
            (fun y hy => hvs y (List.mem_cons_of_mem _ hy)) g6
          refine ⟨rfl, by simp [g7], ?_, ?_⟩
          · intro x hx
            rcases List.mem_cons.1 hx with rfl | hx
            · rfl
            · exact g8 x hx
          · intro c i y e' hy he'
            cases i with
            | zero => simp at hy he'; subst hy he'; exact ⟨hb, g5⟩
            | succ i => exact g9 true i y e' (by simpa using hy) (by simpa using he')

theorem tok_head {d : Doc} (h : Tok d) (hne : d ≠ .leaf []) (ind : Option (Bytes × Bytes)) (n : Nat) : ∃ c u, d.print ind n = c :: u ∧ ¬ WsCh c ∧ c ≠ 0x5D := by
  cases h with
  | null => exact ⟨_, _, rfl, by unfold WsCh; decide, by decide⟩
  | bool b => cases b <;> exact ⟨_, _, rfl, by unfold WsCh; decide, by decide⟩
  | num t ht =>
    cases t with
    | nil => exact absurd rfl hne
    | cons c t => exact ⟨c, t, rfl, numChar_notWs (ht c (by simp)), by rintro rfl; exact notNumChar.1 (ht _ (by simp))⟩
  | str t d _ _ => exact ⟨_, _, rfl, by unfold WsCh; decide, by decide⟩
  | arrNil => exact ⟨_, _, rfl, by unfold WsCh; decide, by decide⟩
  | objNil => exact ⟨_, _, rfl, by unfold WsCh; decide, by decide⟩
  | arr xs => exact ⟨_, _, rfl, by unfold WsCh; decide, by decide⟩
  | obj ms => exact ⟨_, _, rfl, by unfold WsCh; decide, by decide⟩

theorem jval_arr_head {t : Bytes} {j : J} (h : JVal t j) {u : Bytes} (ht : t = 0x5B :: u) : ∃ b js, j = .arr js ∧ t = 0x5B :: (b ++ [0x5D]) ∧ InArr b js := by
  obtain ⟨c, u', e, hc⟩ := jval_head h
  obtain rfl : c = 0x5B := by rw [ht] at e; cases e; rfl
  have hk := head_kind (c := 0x5B) (j := .arr []) rfl hc
  cases j with
  | arr js => obtain ⟨b, hb, h1⟩ := jval_arr h; exact ⟨b, js, rfl, by simpa using hb, h1⟩
  | _ => simp at hk

theorem jval_obj_head {t : Bytes} {j : J} (h : JVal t j) {u : Bytes} (ht : t = 0x7B :: u) : ∃ b js, j = .obj js ∧ t = 0x7B :: (b ++ [0x7D]) ∧ InObj b js := by
  obtain ⟨c, u', e, hc⟩ := jval_head h
  obtain rfl : c = 0x7B := by rw [ht] at e; cases e; rfl
  have hk := head_kind (c := 0x7B) (j := .obj []) rfl hc
  cases j with
  | obj js => obtain ⟨b, hb, h1⟩ := jval_obj h; exact ⟨b, js, rfl, by simpa using hb, h1⟩
  | _ => simp at hk

theorem tok_exact {ind : Option (Bytes × Bytes)} (hi : WsIndent ind) {d : Doc} (h : Tok d) : Exact ind d := by
  induction h with
  | null => exact exact_leaf .null .null
  | bool b => exact exact_leaf (.bool b) (by cases b; exact .fls; exact .tru)
  | num t ht => exact exact_num ht
  | str t d ht _ => exact exact_str ht
  | arrNil => exact exact_leaf .arrNil (.arrNil [] ws_nil)
  | objNil => exact exact_leaf .objNil (.objNil [] ws_nil)
  | arr xs hne hx ih =>
    intro n w w1 t j r r' hw hw1 h hr hr' he
    unfold Doc.print at he
    simp only [List.cons_append] at he
    obtain ⟨rfl, h2⟩ := ws_split hw hw1 (solid_cons (by unfold WsCh; decide) _) (jval_solid h r') he
    obtain ⟨c', u, e, hc'⟩ := jval_head h
    have hc2 : c' = 0x5B := by rw [e] at h2; simp at h2; exact h2.1.symm
    subst hc2
    obtain ⟨b, js, rfl, rfl, hb⟩ := jval_arr_head h e
    cases xs with
    | nil => exact absurd rfl hne
    | cons x xs =>
      simp only [printElems, if_true, List.cons_append, List.cons.injEq, true_and, List.append_assoc, List.nil_append] at h2
      rcases hb with ⟨hb, rfl⟩ | hb
      · by_cases h0 : x = .leaf []
        · subst h0
          cases xs with
          | nil =>
            simp only [printElems, Doc.print, List.nil_append] at h2
            rw [← List.append_assoc] at h2
            obtain ⟨-, -, rfl⟩ := ws_clash (ws_append (nl_ws hi _) (nl_ws hi _)) hb notWs.1 notWs.1 h2
            exact ⟨rfl, rfl, by simp, .lone⟩
          | cons y xs =>
            exfalso
            simp only [printElems, Doc.print, Bool.false_eq_true, if_false, List.cons_append, List.nil_append] at h2
            have := (ws_clash (nl_ws hi _) hb notWs.2.2.1 notWs.1 h2).2.1
            cases this
        · exfalso
          obtain ⟨c, u, e1, h3, h4⟩ := tok_head (hx x (by simp)) h0 ind (n + 1)
          rw [e1] at h2
          exact h4 (ws_clash (nl_ws hi _) hb h3 notWs.1 h2).2.1
      · obtain ⟨rfl, h3, h4⟩ := elems_exact hi (n + 1) n hb x xs r r' ih h2
        exact ⟨rfl, rfl, by simp, .arr _ _ (by simp) (by simpa using h3) h4⟩
  | obj ms hk _ hx ih =>
    intro n w w1 t j r r' hw hw1 h hr hr' he
    unfold Doc.print at he
    simp only [List.cons_append] at he
    obtain ⟨rfl, h2⟩ := ws_split hw hw1 (solid_cons (by unfold WsCh; decide) _) (jval_solid h r') he
    obtain ⟨c', u, e, hc'⟩ := jval_head h
    have hc2 : c' = 0x7B := by rw [e] at h2; simp at h2; exact h2.1.symm
    subst hc2
    obtain ⟨b, js, rfl, rfl, hb⟩ := jval_obj_head h e
    cases ms with
    | nil =>
      simp only [printMems, List.cons_append, List.cons.injEq, true_and, List.append_assoc, List.nil_append] at h2
      rcases hb with ⟨hb, rfl⟩ | hb
      · obtain ⟨-, -, rfl⟩ := ws_clash (nl_ws hi _) hb notWs.2.1 notWs.2.1 h2
        exact ⟨rfl, rfl, by simp, .obj [] [] trivial rfl (by simp) (by simp)⟩
      · exact absurd h2 (ws_not_mems (nl_ws hi _) hb)
    | cons m ms =>
      obtain ⟨c, k, v⟩ := m
      have hcm : c = false := by
        cases c
        · rfl
        exfalso
        simp only [printMems, if_true, List.cons_append, List.cons.injEq, true_and, List.append_assoc, List.nil_append] at h2
        rcases hb with ⟨hb, rfl⟩ | hb
        · have := (ws_clash (w := []) ws_nil hb notWs.2.2.1 notWs.2.1 h2).2.1; cases this
        · obtain ⟨w', u', rfl, hw'⟩ := jmems_head hb
          simp only [List.cons_append, List.append_assoc] at h2
          have := (ws_clash (w := []) ws_nil hw' notWs.2.2.1 notWs2 h2).2.1; cases this
      subst hcm
      simp only [printMems, Bool.false_eq_true, if_false, List.cons_append, List.cons.injEq, true_and, List.append_assoc, List.nil_append] at h2
      rcases hb with ⟨hb, rfl⟩ | hb
      · have := (ws_clash (nl_ws hi _) hb notWs2 notWs.2.1 h2).2.1; cases this
      · obtain ⟨rfl, h3, h4, h5⟩ := mems_exact hi (n + 1) n hb k v ms r r' (hk _ List.mem_cons_self) (ih _ List.mem_cons_self) (fun y hy => hk y (List.mem_cons_of_mem _ hy))
          (fun y hy => ih y (List.mem_cons_of_mem _ hy)) h2
        refine ⟨rfl, rfl, by simp, .obj _ _ ⟨rfl, h4⟩ (by simpa using h3) (fun i m e hm he => (h5 false i m e hm he).1) fun i m e hm he => (h5 false i m e hm he).2⟩

/-- the literals of the text are good -/
theorem tok_quoted {ind : Option (Bytes × Bytes)} (hi : WsIndent ind) {d : Doc} (h : Tok d) : ∀ n y, Quoted y → Quoted (d.print ind n ++ y) := by
  have elems : ∀ (xs : List Doc), (∀ x ∈ xs, ∀ n y, Quoted y → Quoted (x.print ind n ++ y)) → ∀ d first y, Quoted y → Quoted (printElems ind d first xs ++ y) := by
    intro xs
    induction xs with
    | nil => intro _ d first y hy; simpa [printElems] using hy
    | cons x xs ih =>
      intro h d first y hy
      have h2 := h x (by simp) d _ (ih (fun z hz => h z (by simp [hz])) d false y hy)
      simp only [printElems, List.append_assoc]
      refine (quoted_chars ?_).2 ((quoted_ws (nl_ws hi d)).2 h2)
      intro c hc; split at hc <;> simp at hc; subst hc; decide
  have mems : ∀ (ms : List DMem), (∀ m ∈ ms, QGood (DMem.key m)) → (∀ m ∈ ms, ∀ n y, Quoted y → Quoted ((DMem.v m).print ind n ++ y)) → ∀ d y, Quoted y → Quoted (printMems ind d ms ++ y) := by
    intro ms
    induction ms with
    | nil => intro _ _ d y hy; simpa [printMems] using hy
    | cons m ms ih =>
      obtain ⟨c, k, v⟩ := m
      intro hq h d y hy
      have h2 := h _ List.mem_cons_self d _ (ih (fun z hz => hq z (List.mem_cons_of_mem _ hz)) (fun z hz => h z (List.mem_cons_of_mem _ hz)) d y hy)
      simp only [printMems, List.append_assoc, List.cons_append, List.nil_append]
      refine (quoted_chars ?_).2 ((quoted_ws (nl_ws hi d)).2 (.str k _ (hq _ List.mem_cons_self) ((quoted_cons (by decide)).2 ((quoted_chars ?_).2 h2))))
      · intro x hx; split at hx <;> simp at hx; subst hx; decide
      · intro x hx; split at hx <;> simp at hx; subst hx; decide
  induction h with
  | null => intro n y hy; unfold Doc.print; exact (quoted_chars (by decide)).2 hy
  | bool b => intro n y hy; unfold Doc.print; exact (quoted_chars (by cases b <;> decide)).2 hy
  | num t ht => intro n y hy; exact (quoted_chars (fun c hc => by rintro rfl; have := ht _ hc; unfold NumChar Digit at this; revert this; decide)).2 hy
  | str t d _ hq => intro n y hy; simpa [Doc.print] using Quoted.str t y hq hy
  | arrNil => intro n y hy; unfold Doc.print; exact (quoted_chars (by decide)).2 hy
  | objNil => intro n y hy; unfold Doc.print; exact (quoted_chars (by decide)).2 hy
  | arr xs _ _ ih =>
    intro n y hy
    unfold Doc.print
    simp only [List.cons_append, List.append_assoc, List.nil_append]
    exact (quoted_cons (by decide)).2 (elems xs ih _ _ _ ((quoted_ws (nl_ws hi n)).2 ((quoted_cons (by decide)).2 hy)))
  | obj ms _ hq _ ih =>
    intro n y hy
    unfold Doc.print
    simp only [List.cons_append, List.append_assoc, List.nil_append]
    exact (quoted_cons (by decide)).2 (mems ms hq ih _ _ ((quoted_ws (nl_ws hi n)).2 ((quoted_cons (by decide)).2 hy)))

theorem stop_nil {w : Bytes} (h : Ws w) : Stop w := ⟨w, [], by simp, h, .inl rfl⟩

/-- the text of a document is JSON exactly if its tokens are right -/
theorem docX_iff {ind : Option (Bytes × Bytes)} (hi : WsIndent ind) {d : Doc} (h : Tok d) : (∃ j, JText (d.print ind 0) j) ↔ ∃ j, DocX d j := by
  constructor
  · rintro ⟨j, w1, t, w2, e, h1, h2, h3⟩
    have := tok_exact hi h 0 [] w1 t j [] w2 ws_nil h1 h2 (.inl (stop_nil ws_nil)) (stop_nil h3) (by simpa using e)
    exact ⟨j, this.2.2.2⟩
  · rintro ⟨j, hj⟩
    exact ⟨j, [], d.print ind 0, [], by simp, ws_nil, docX_strict hi hj 0, ws_nil⟩

end JV
