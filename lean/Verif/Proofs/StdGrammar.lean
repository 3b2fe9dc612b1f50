import Verif.Spec.Export
import Verif.Proofs.Escape
import Verif.Proofs.StrictScan
import Verif.Proofs.LUnique
/-! The texts that encoding/json lets pass, and JSON texts. -/
namespace JV
open Spec

/-! ### string literals -/

/-- something between quotes, as far as one can tell where it ends -/
inductive QBody : Bytes → Prop
  | nil : QBody []
  | char (c t) : c ≠ 0x22 → c ≠ 0x5C → QBody t → QBody (c :: t)
  | esc (c t) : QBody t → QBody (0x5C :: c :: t)

theorem QBody.append {a b : Bytes} (ha : QBody a) (hb : QBody b) : QBody (a ++ b) := by
  induction ha with
  | nil => exact hb
  | char c t h1 h2 _ ih => exact .char c _ h1 h2 ih
  | esc c t _ ih => exact .esc c _ ih

theorem qbody_chars : ∀ {a : Bytes}, (∀ c ∈ a, c ≠ 0x22 ∧ c ≠ 0x5C) → QBody a
  | [], _ => .nil
  | c :: a, h => .char c a (h c (by simp)).1 (h c (by simp)).2 (qbody_chars fun x hx => h x (by simp [hx]))

theorem qbody_unique {b : Bytes} (h : QBody b) : ∀ {b' r r' : Bytes}, QBody b' → b ++ 0x22 :: r = b' ++ 0x22 :: r' → b = b' ∧ r = r' := by
  induction h with
  | nil =>
    intro b' r r' h' he
    cases h' with
    | nil => simpa using he
    | char c t h1 h2 _ => simp at he; exact absurd he.1.symm h1
    | esc c t _ => simp at he
  | char c t h1 h2 _ ih =>
    intro b' r r' h' he
    cases h' with
    | nil => simp at he; exact absurd he.1 h1
    | char c' t' _ _ h3 =>
      simp only [List.cons_append, List.cons.injEq] at he
      obtain ⟨rfl, he⟩ := he
      obtain ⟨rfl, rfl⟩ := ih h3 he
      exact ⟨rfl, rfl⟩
    | esc c' t' _ => simp at he; exact absurd he.1 h2
  | esc c t _ ih =>
    intro b' r r' h' he
    cases h' with
    | nil => simp at he
    | char c' t' _ h2 _ => simp at he; exact absurd he.1.symm h2
    | esc c' t' h3 =>
      simp only [List.cons_append, List.cons.injEq, true_and] at he
      obtain ⟨rfl, he⟩ := he
      obtain ⟨rfl, rfl⟩ := ih h3 he
      exact ⟨rfl, rfl⟩

theorem hexCh_plain {c : UInt8} (h : HexCh c) : 0x20 ≤ c.toNat ∧ c ≠ 0x22 ∧ c ≠ 0x5C := by
  obtain ⟨n, h⟩ := h
  unfold Hex at h
  refine ⟨by omega, ?_, ?_⟩ <;> rintro rfl <;> simp at h

theorem _root_.Spec.RawBody.q {b : Bytes} (h : RawBody b) : QBody b := by
  induction h with
  | nil => exact .nil
  | char c t _ h1 h2 _ ih => exact .char c t h1 h2 ih
  | esc c b t _ _ ih => exact .esc c t ih
  | uni a b c d t ha hb hc hd _ ih =>
    exact .esc _ _ (.char _ _ (hexCh_plain ha).2.1 (hexCh_plain ha).2.2 (.char _ _ (hexCh_plain hb).2.1 (hexCh_plain hb).2.2
      (.char _ _ (hexCh_plain hc).2.1 (hexCh_plain hc).2.2 (.char _ _ (hexCh_plain hd).2.1 (hexCh_plain hd).2.2 ih))))

theorem _root_.Spec.RawBody.ge {b : Bytes} (h : RawBody b) : ∀ c ∈ b, 0x20 ≤ c.toNat := by
  induction h with
  | nil => simp
  | char c t h1 _ _ _ ih => intro x hx; rcases List.mem_cons.1 hx with rfl | hx; exact h1; exact ih x hx
  | esc c b t he _ ih =>
    intro x hx
    simp only [List.mem_cons] at hx
    rcases hx with rfl | rfl | hx
    · decide
    · unfold EscChar at he
      rcases he with ⟨rfl, -⟩ | ⟨rfl, -⟩ | ⟨rfl, -⟩ | ⟨rfl, -⟩ | ⟨rfl, -⟩ | ⟨rfl, -⟩ | ⟨rfl, -⟩ | ⟨rfl, -⟩ <;> decide
    · exact ih x hx
  | uni a b c d t ha hb hc hd _ ih =>
    intro x hx
    simp only [List.mem_cons] at hx
    rcases hx with rfl | rfl | rfl | rfl | rfl | rfl | hx
    · decide
    · decide
    · exact (hexCh_plain ha).1
    · exact (hexCh_plain hb).1
    · exact (hexCh_plain hc).1
    · exact (hexCh_plain hd).1
    · exact ih x hx

theorem rawBody_chars : ∀ {a t : Bytes}, (∀ c ∈ a, 0x20 ≤ c.toNat ∧ c ≠ 0x22 ∧ c ≠ 0x5C) → RawBody t → RawBody (a ++ t)
  | [], _, _, h => h
  | c :: a, _, h, h' => .char c _ (h c (by simp)).1 (h c (by simp)).2.1 (h c (by simp)).2.2 (rawBody_chars (fun x hx => h x (by simp [hx])) h')

theorem rawBody_uesc {e : Bytes} {r : Nat} (h : UEsc e r) {t : Bytes} (ht : RawBody t) : RawBody (e ++ t) := by
  obtain ⟨a, b, c, d, _, _, _, _, rfl, ha, hb, hc, hd, -⟩ := h
  exact .uni a b c d t ⟨_, ha⟩ ⟨_, hb⟩ ⟨_, hc⟩ ⟨_, hd⟩ ht

theorem utf8_plain {r : Nat} (hr : Scalar r) (h0 : 0x20 ≤ r) (h1 : r ≠ 0x22) (h2 : r ≠ 0x5C) : ∀ c ∈ utf8 r, 0x20 ≤ c.toNat ∧ c ≠ 0x22 ∧ c ≠ 0x5C := by
  intro c hc
  by_cases hr8 : r < 0x80
  · rw [utf8_ascii hr8, List.mem_singleton] at hc
    subst hc
    have := toNat_ofNat (n := r) (by omega)
    refine ⟨by omega, ?_, ?_⟩ <;> intro h <;> have := congrArg UInt8.toNat h <;> simp_all
  · have := utf8_high (by omega) c hc
    have : 0x80 ≤ c.toNat := by rcases this with h | h; exact h; unfold Scalar at hr; omega
    refine ⟨by omega, ?_, ?_⟩ <;> rintro rfl <;> simp at this

theorem strBody_raw {b d : Bytes} (h : StrBody b d) : RawBody b := by
  induction h with
  | nil => exact .nil
  | char r t d hr h0 h1 h2 _ ih => exact rawBody_chars (utf8_plain hr h0 h1 h2) ih
  | esc c b t d he _ ih => exact .esc c b t he ih
  | uni e r t d he _ _ ih => exact rawBody_uesc he ih
  | pair e1 e2 hi lo t d h1 h2 _ _ _ _ _ ih => rw [List.append_assoc]; exact rawBody_uesc h1 (rawBody_uesc h2 ih)

/-- a literal in which only control characters may be wrong -/
def QGood (b : Bytes) : Prop := QBody b ∧ ((∀ c ∈ b, 0x20 ≤ c.toNat) → ∃ d, StrBody b d)

theorem qgood_strBody {b d : Bytes} (h : StrBody b d) : QGood b := ⟨(strBody_raw h).q, fun _ => ⟨d, h⟩⟩

/-! ### texts whose literals are good -/

/-- every literal of the text is good -/
inductive Quoted : Bytes → Prop
  | nil : Quoted []
  | char (c t) : c ≠ 0x22 → Quoted t → Quoted (c :: t)
  | str (b t) : QGood b → Quoted t → Quoted (0x22 :: (b ++ 0x22 :: t))

theorem quoted_chars : ∀ {a t : Bytes}, (∀ c ∈ a, c ≠ 0x22) → (Quoted (a ++ t) ↔ Quoted t)
  | [], _, _ => Iff.rfl
  | c :: a, t, h => by
    rw [List.cons_append]
    constructor
    · intro h'
      generalize hx : c :: (a ++ t) = x at h'
      cases h' with
      | nil => cases hx
      | char _ _ _ h' => cases hx; exact (quoted_chars fun x hx => h x (by simp [hx])).1 h'
      | str => exact absurd (List.cons.inj hx).1 (h c (by simp))
    · intro h'; exact .char c _ (h c (by simp)) ((quoted_chars fun x hx => h x (by simp [hx])).2 h')

theorem quoted_cons {c : UInt8} {t : Bytes} (h : c ≠ 0x22) : Quoted (c :: t) ↔ Quoted t := quoted_chars (a := [c]) (by simpa using h)

theorem quoted_ws {w t : Bytes} (h : Ws w) : Quoted (w ++ t) ↔ Quoted t :=
  quoted_chars fun c hc => by rcases h c hc with rfl | rfl | rfl | rfl <;> decide

theorem num_noQuote {t : Bytes} (h : JNum t) : ∀ c ∈ t, c ≠ 0x22 := fun c hc => (num_first c ((jnum_chars h).2 c hc)).2.1

/-- a literal where the text goes on with one -/
theorem quoted_str {b t : Bytes} (h : RawBody b) (hq : Quoted (0x22 :: (b ++ 0x22 :: t))) : (∃ d, StrBody b d) ∧ Quoted t := by
  generalize hx : 0x22 :: (b ++ 0x22 :: t) = x at hq
  cases hq with
  | nil => cases hx
  | char c t' hc _ => cases hx; exact absurd rfl hc
  | str b' t' hb ht =>
    simp only [List.cons.injEq, true_and] at hx
    obtain ⟨rfl, rfl⟩ := qbody_unique h.q hb.1 hx
    exact ⟨hb.2 h.ge, ht⟩

/-! ### documents that differ in strings only -/

/-- the same nesting and the same numbers -/
def Like (j j' : J) : Prop := j.depth = j'.depth ∧ ∀ P, j.AllNums P ↔ j'.AllNums P
def LikeL (js js' : List J) : Prop := depthL js = depthL js' ∧ ∀ P, AllNumsL P js ↔ AllNumsL P js'
def LikeM (ms ms' : List Mem) : Prop := depthM ms = depthM ms' ∧ ∀ P, AllNumsM P ms ↔ AllNumsM P ms'

theorem Like.refl (j : J) : Like j j := ⟨rfl, fun _ => Iff.rfl⟩
theorem likeL_arr {js js' : List J} (h : LikeL js js') : Like (.arr js) (.arr js') :=
  ⟨by simp only [J.depth, h.1], fun P => by simp only [J.AllNums]; exact h.2 P⟩
theorem likeM_obj {ms ms' : List Mem} (h : LikeM ms ms') : Like (.obj ms) (.obj ms') :=
  ⟨by simp only [J.depth, h.1], fun P => by simp only [J.AllNums]; exact h.2 P⟩
theorem like_str (s s' : Bytes) : Like (.str s) (.str s') := ⟨rfl, fun _ => Iff.rfl⟩
theorem likeL_cons {j j' : J} {js js' : List J} (h : Like j j') (hs : LikeL js js') : LikeL (j :: js) (j' :: js') :=
  ⟨by simp only [depthL, h.1, hs.1], fun P => by simp only [AllNumsL]; rw [h.2 P, hs.2 P]⟩
theorem likeL_nil : LikeL [] [] := ⟨rfl, fun _ => Iff.rfl⟩
theorem likeM_cons {k k' : Bytes} {j j' : J} {ms ms' : List Mem} (h : Like j j') (hs : LikeM ms ms') : LikeM (⟨k, j⟩ :: ms) (⟨k', j'⟩ :: ms') :=
  ⟨by simp only [depthM, h.1, hs.1], fun P => by simp only [AllNumsM]; rw [h.2 P, hs.2 P]⟩
theorem likeM_nil : LikeM [] [] := ⟨rfl, fun _ => Iff.rfl⟩

/-! ### JSON passes -/

theorem jval_raw {t : Bytes} {j : J} (h : JVal t j) : ∃ j', GVal t j' ∧ Like j j' := by
  refine @JVal.rec (fun t j _ => ∃ j', GVal t j' ∧ Like j j') (fun t js _ => ∃ js', GElems t js' ∧ LikeL js js') (fun t ms _ => ∃ ms', GMems t ms' ∧ LikeM ms ms')
    ?_ ?_ ?_ ?_ ?_ ?_ ?_ ?_ ?_ ?_ ?_ ?_ ?_ t j h
  · exact ⟨_, .null, .refl _⟩
  · exact ⟨_, .tru, .refl _⟩
  · exact ⟨_, .fls, .refl _⟩
  · intro t ht; exact ⟨_, .num t ht, .refl _⟩
  · rintro t d ⟨b, rfl, hb⟩; exact ⟨_, .str _ b ⟨rfl, strBody_raw hb⟩, like_str _ _⟩
  · intro w hw; exact ⟨_, .arrNil w hw, .refl _⟩
  · rintro t xs _ ⟨js, h1, h2⟩; exact ⟨_, .arr t js h1, likeL_arr h2⟩
  · intro w hw; exact ⟨_, .objNil w hw, .refl _⟩
  · rintro t xs _ ⟨js, h1, h2⟩; exact ⟨_, .obj t js h1, likeM_obj h2⟩
  · rintro w1 t w2 v h1 _ h2 ⟨j, i1, i2⟩; exact ⟨_, .one w1 t w2 j h1 i1 h2, likeL_cons i2 likeL_nil⟩
  · rintro w1 t w2 ts v vs h1 _ h2 _ ⟨j, i1, i2⟩ ⟨js, k1, k2⟩; exact ⟨_, .cons w1 t w2 ts j js h1 i1 h2 k1, likeL_cons i2 k2⟩
  · rintro w1 k w2 w3 t w4 d v h1 ⟨b, rfl, hb⟩ h2 h3 _ h4 ⟨j, i1, i2⟩
    exact ⟨_, .one w1 _ w2 w3 t w4 b j h1 ⟨rfl, strBody_raw hb⟩ h2 h3 i1 h4, likeM_cons i2 likeM_nil⟩
  · rintro w1 k w2 w3 t w4 d ts v vs h1 ⟨b, rfl, hb⟩ h2 h3 _ h4 _ ⟨j, i1, i2⟩ ⟨js, k1, k2⟩
    exact ⟨_, .cons w1 _ w2 w3 t w4 b ts j js h1 ⟨rfl, strBody_raw hb⟩ h2 h3 i1 h4 k1, likeM_cons i2 k2⟩

theorem jtext_raw {s : Bytes} {j : J} (h : JText s j) : ∃ j', GText s j' ∧ Like j j' := by
  obtain ⟨w1, t, w2, rfl, h1, h2, h3⟩ := h
  obtain ⟨j', h4, h5⟩ := jval_raw h2
  exact ⟨j', ⟨w1, t, w2, rfl, h1, h4, h3⟩, h5⟩

/-- what passes is JSON if its literals are good -/
theorem raw_jval {t : Bytes} {j : J} (h : GVal t j) : ∀ y, Quoted (t ++ y) → (∃ j', JVal t j' ∧ Like j j') ∧ Quoted y := by
  refine @GVal.rec (fun t j _ => ∀ y, Quoted (t ++ y) → (∃ j', JVal t j' ∧ Like j j') ∧ Quoted y) (fun t js _ => ∀ y, Quoted (t ++ y) → (∃ js', JElems t js' ∧ LikeL js js') ∧ Quoted y)
    (fun t ms _ => ∀ y, Quoted (t ++ y) → (∃ ms', JMems t ms' ∧ LikeM ms ms') ∧ Quoted y)
    ?_ ?_ ?_ ?_ ?_ ?_ ?_ ?_ ?_ ?_ ?_ ?_ ?_ t j h
  · intro y hy; exact ⟨⟨_, .null, .refl _⟩, (quoted_chars (by decide)).1 hy⟩
  · intro y hy; exact ⟨⟨_, .tru, .refl _⟩, (quoted_chars (by decide)).1 hy⟩
  · intro y hy; exact ⟨⟨_, .fls, .refl _⟩, (quoted_chars (by decide)).1 hy⟩
  · intro t ht y hy; exact ⟨⟨_, .num t ht, .refl _⟩, (quoted_chars (num_noQuote ht)).1 hy⟩
  · rintro t b ⟨rfl, hb⟩ y hy
    obtain ⟨⟨d, hd⟩, h2⟩ := quoted_str hb (t := y) (by simpa using hy)
    exact ⟨⟨_, .str _ d ⟨b, rfl, hd⟩, like_str _ _⟩, h2⟩
  · intro w hw y hy
    simp only [List.cons_append, List.append_assoc, List.nil_append] at hy
    rw [quoted_cons (by decide), quoted_ws hw, quoted_cons (by decide)] at hy
    exact ⟨⟨_, .arrNil w hw, .refl _⟩, hy⟩
  · intro t xs _ ih y hy
    simp only [List.cons_append, List.append_assoc, List.nil_append] at hy
    rw [quoted_cons (by decide)] at hy
    obtain ⟨⟨js, h1, h2⟩, h3⟩ := ih _ hy
    exact ⟨⟨_, .arr t js h1, likeL_arr h2⟩, (quoted_cons (by decide)).1 h3⟩
  · intro w hw y hy
    simp only [List.cons_append, List.append_assoc, List.nil_append] at hy
    rw [quoted_cons (by decide), quoted_ws hw, quoted_cons (by decide)] at hy
    exact ⟨⟨_, .objNil w hw, .refl _⟩, hy⟩
  · intro t xs _ ih y hy
    simp only [List.cons_append, List.append_assoc, List.nil_append] at hy
    rw [quoted_cons (by decide)] at hy
    obtain ⟨⟨js, h1, h2⟩, h3⟩ := ih _ hy
    exact ⟨⟨_, .obj t js h1, likeM_obj h2⟩, (quoted_cons (by decide)).1 h3⟩
  · intro w1 t w2 v h1 _ h2 ih y hy
    simp only [List.append_assoc] at hy
    rw [quoted_ws h1] at hy
    obtain ⟨⟨j, i1, i2⟩, h3⟩ := ih _ hy
    exact ⟨⟨_, .one w1 t w2 j h1 i1 h2, likeL_cons i2 likeL_nil⟩, (quoted_ws h2).1 h3⟩
  · intro w1 t w2 ts v vs h1 _ h2 _ ih ihs y hy
    simp only [List.append_assoc, List.cons_append] at hy
    rw [quoted_ws h1] at hy
    obtain ⟨⟨j, i1, i2⟩, h3⟩ := ih _ hy
    rw [quoted_ws h2, quoted_cons (by decide)] at h3
    obtain ⟨⟨js, k1, k2⟩, h4⟩ := ihs _ h3
    exact ⟨⟨_, .cons w1 t w2 ts j js h1 i1 h2 k1, likeL_cons i2 k2⟩, h4⟩
  · rintro w1 k w2 w3 t w4 b v h1 ⟨rfl, hb⟩ h2 h3 _ h4 ih y hy
    simp only [List.append_assoc, List.cons_append, List.nil_append] at hy
    rw [quoted_ws h1] at hy
    obtain ⟨⟨d, hd⟩, hy⟩ := quoted_str hb hy
    rw [quoted_ws h2, quoted_cons (by decide), quoted_ws h3] at hy
    obtain ⟨⟨j, i1, i2⟩, h5⟩ := ih _ hy
    exact ⟨⟨_, .one w1 _ w2 w3 t w4 d j h1 ⟨b, rfl, hd⟩ h2 h3 i1 h4, likeM_cons i2 likeM_nil⟩, (quoted_ws h4).1 h5⟩
  · rintro w1 k w2 w3 t w4 b ts v vs h1 ⟨rfl, hb⟩ h2 h3 _ h4 _ ih ihs y hy
    simp only [List.append_assoc, List.cons_append, List.nil_append] at hy
    rw [quoted_ws h1] at hy
    obtain ⟨⟨d, hd⟩, hy⟩ := quoted_str hb hy
    rw [quoted_ws h2, quoted_cons (by decide), quoted_ws h3] at hy
    obtain ⟨⟨j, i1, i2⟩, h5⟩ := ih _ hy
    rw [quoted_ws h4, quoted_cons (by decide)] at h5
    obtain ⟨⟨js, k1, k2⟩, h6⟩ := ihs _ h5
    exact ⟨⟨_, .cons w1 _ w2 w3 t w4 d ts j js h1 ⟨b, rfl, hd⟩ h2 h3 i1 h4 k1, likeM_cons i2 k2⟩, h6⟩

theorem raw_jtext {s : Bytes} {j : J} (h : GText s j) (hq : Quoted s) : ∃ j', JText s j' ∧ Like j j' := by
  obtain ⟨w1, t, w2, rfl, h1, h2, h3⟩ := h
  rw [List.append_assoc, quoted_ws h1] at hq
  obtain ⟨⟨j', h4, h5⟩, -⟩ := raw_jval h2 _ hq
  exact ⟨j', ⟨w1, t, w2, rfl, h1, h4, h3⟩, h5⟩

/-! ### the literals of JSON are good -/

theorem jval_quoted {t : Bytes} {j : J} (h : JVal t j) : ∀ y, Quoted y → Quoted (t ++ y) := by
  refine @JVal.rec (fun t j _ => ∀ y, Quoted y → Quoted (t ++ y)) (fun t js _ => ∀ y, Quoted y → Quoted (t ++ y)) (fun t ms _ => ∀ y, Quoted y → Quoted (t ++ y))
    ?_ ?_ ?_ ?_ ?_ ?_ ?_ ?_ ?_ ?_ ?_ ?_ ?_ t j h
  · intro y hy; exact (quoted_chars (by decide)).2 hy
  · intro y hy; exact (quoted_chars (by decide)).2 hy
  · intro y hy; exact (quoted_chars (by decide)).2 hy
  · intro t ht y hy; exact (quoted_chars (num_noQuote ht)).2 hy
  · rintro t d ⟨b, rfl, hb⟩ y hy
    simpa using Quoted.str b y (qgood_strBody hb) hy
  · intro w hw y hy
    simp only [List.cons_append, List.append_assoc, List.nil_append]
    rw [quoted_cons (by decide), quoted_ws hw, quoted_cons (by decide)]
    exact hy
  · intro t xs _ ih y hy
    simp only [List.cons_append, List.append_assoc, List.nil_append]
    rw [quoted_cons (by decide)]
    exact ih _ ((quoted_cons (by decide)).2 hy)
  · intro w hw y hy
    simp only [List.cons_append, List.append_assoc, List.nil_append]
    rw [quoted_cons (by decide), quoted_ws hw, quoted_cons (by decide)]
    exact hy
  · intro t xs _ ih y hy
    simp only [List.cons_append, List.append_assoc, List.nil_append]
    rw [quoted_cons (by decide)]
    exact ih _ ((quoted_cons (by decide)).2 hy)
  · intro w1 t w2 v h1 _ h2 ih y hy
    simp only [List.append_assoc]
    exact (quoted_ws h1).2 (ih _ ((quoted_ws h2).2 hy))
  · intro w1 t w2 ts v vs h1 _ h2 _ ih ihs y hy
    simp only [List.append_assoc, List.cons_append]
    exact (quoted_ws h1).2 (ih _ ((quoted_ws h2).2 ((quoted_cons (by decide)).2 (ihs _ hy))))
  · rintro w1 k w2 w3 t w4 d v h1 ⟨b, rfl, hb⟩ h2 h3 _ h4 ih y hy
    simp only [List.append_assoc, List.cons_append, List.nil_append]
    exact (quoted_ws h1).2 (.str b _ (qgood_strBody hb) ((quoted_ws h2).2 ((quoted_cons (by decide)).2 ((quoted_ws h3).2 (ih _ ((quoted_ws h4).2 hy))))))
  · rintro w1 k w2 w3 t w4 d ts v vs h1 ⟨b, rfl, hb⟩ h2 h3 _ h4 _ ih ihs y hy
    simp only [List.append_assoc, List.cons_append, List.nil_append]
    exact (quoted_ws h1).2 (.str b _ (qgood_strBody hb) ((quoted_ws h2).2 ((quoted_cons (by decide)).2 ((quoted_ws h3).2 (ih _ ((quoted_ws h4).2 ((quoted_cons (by decide)).2 (ihs _ hy))))))))

theorem jtext_quoted {s : Bytes} {j : J} (h : JText s j) : Quoted s := by
  obtain ⟨w1, t, w2, rfl, h1, h2, h3⟩ := h
  rw [List.append_assoc]
  refine (quoted_ws h1).2 (jval_quoted h2 _ ?_)
  have := (quoted_ws (t := []) h3).2 .nil
  simpa using this

/-- what passes and is JSON has one shape -/
theorem raw_like {s : Bytes} {j j' : J} (h : GText s j) (h' : JText s j') : Like j j' := by
  obtain ⟨j2, h1, h2⟩ := raw_jtext h (jtext_quoted h')
  rw [jtext_unique h' h1]; exact h2

end JV
