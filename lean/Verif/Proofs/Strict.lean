import Verif.Proofs.LexNum
import Verif.Proofs.GrammarComplete
/-! JSON texts belong to the accepted language. -/
namespace JV
open Spec

/-- Number literals the parser is documented to handle: integers between the smallest int64 and the largest uint64, other numbers that fit
a float64 — and, as the code has it, without the zero problem of `ZerosOK`. -/
def NumOK (E : Env) (t : Bytes) : Prop :=
  (∀ neg ip, JInt neg ip t → -2 ^ 63 ≤ intVal neg ip ∧ intVal neg ip < 2 ^ 64) ∧
  (∀ neg ip, JFloat neg ip t → E.parseFloat t ≠ none ∧ ZerosOK ip)

theorem intPart_digits {ip : Bytes} (h : IntPart ip) : Digits ip ∧ ip ≠ [] ∧ (∀ c u, ip ≠ 0x30 :: c :: u) := by
  rcases h with rfl | ⟨d, ds, rfl, h1, h2, h3⟩
  · refine ⟨?_, by simp, by simp⟩
    intro c hc; simp at hc; subst hc; unfold Digit; decide
  · refine ⟨?_, by simp, ?_⟩
    · intro c hc
      rcases List.mem_cons.1 hc with rfl | hc
      · unfold Digit; omega
      · exact h3 c hc
    · intro c u he
      simp at he
      rw [he.1] at h1
      simp at h1

theorem valFrom_ge (n : Nat) (ds : Bytes) : n * 10 ^ ds.length ≤ valFrom n ds := by
  induction ds generalizing n with
  | nil => simp [valFrom]
  | cons c ds ih =>
    have := ih (10 * n + (c.toNat - 0x30))
    have e : valFrom n (c :: ds) = valFrom (10 * n + (c.toNat - 0x30)) ds := rfl
    rw [e]
    refine Nat.le_trans ?_ this
    rw [List.length_cons, Nat.pow_succ]
    have : n * (10 ^ ds.length * 10) = (10 * n) * 10 ^ ds.length := by
      rw [Nat.mul_comm 10 n, Nat.mul_assoc, Nat.mul_comm 10]
    rw [this]
    exact Nat.mul_le_mul_right _ (by omega)

theorem intPart_ge {ip : Bytes} (h : IntPart ip) : ip = [0x30] ∨ 10 ^ (ip.length - 1) ≤ decVal ip := by
  rcases h with rfl | ⟨d, ds, rfl, h1, h2, h3⟩
  · exact .inl rfl
  · refine .inr ?_
    have : decVal (d :: ds) = valFrom (d.toNat - 0x30) ds := by simp [decVal, valFrom]
    rw [this]
    refine Nat.le_trans ?_ (valFrom_ge _ _)
    simp only [List.length_cons, Nat.add_sub_cancel]
    exact Nat.le_mul_of_pos_left _ (by omega)

theorem pow_len {n k : Nat} (h : 10 ^ n < 10 ^ k) : n < k := (Nat.pow_lt_pow_iff_right (by decide)).1 h

theorem jint_tok {neg : Bool} {ip t : Bytes} (h : JInt neg ip t) (h1 : -2 ^ 63 ≤ intVal neg ip) (h2 : intVal neg ip < 2 ^ 64) :
    t = sign neg ++ ip ∧ IntTok neg ip := by
  obtain ⟨hip, rfl⟩ := h
  obtain ⟨hd, hne, hz⟩ := intPart_digits hip
  refine ⟨rfl, hd, hne, ?_⟩
  have hge := intPart_ge hip
  unfold intVal at h1 h2
  cases neg
  · simp only [Bool.false_eq_true, if_false] at h1 h2 ⊢
    refine ⟨hz, ?_⟩
    rcases hge with rfl | hge
    · simp
    · have h2' : decVal ip < 2 ^ 64 := by omega
      have : ip.length - 1 < 20 := pow_len (Nat.lt_of_le_of_lt hge (Nat.lt_trans h2' (by decide)))
      by_cases hl : ip.length ≤ 19
      · exact .inl hl
      · have hl : ip.length = 20 := by omega
        refine .inr ⟨hl, ?_⟩
        rw [Nat.mod_eq_of_lt h2']
        rw [hl] at hge
        exact hge
  · simp only [if_true] at h1 h2 ⊢
    refine ⟨fun u => hz _ u, ?_⟩
    rcases hge with rfl | hge
    · simp
    · have h1' : decVal ip ≤ 2 ^ 63 := by omega
      have : ip.length - 1 < 19 := pow_len (Nat.lt_of_le_of_lt hge (Nat.lt_of_le_of_lt h1' (by decide)))
      by_cases hl : ip.length ≤ 18
      · exact .inl hl
      · exact .inr ⟨by omega, h1'⟩

theorem jint_num {E : Env} {neg : Bool} {ip t : Bytes} (h : JInt neg ip t) (h1 : -2 ^ 63 ≤ intVal neg ip) (h2 : intVal neg ip < 2 ^ 64) :
    NumTok E t ∧ numOf E t = intNum E neg (decVal ip) := by
  obtain ⟨rfl, hi⟩ := jint_tok h h1 h2
  have := intTok_iff (E := E) neg ip hi.1
  exact ⟨this.1.2 hi, this.2 hi⟩

theorem jfloat_num {E : Env} {neg : Bool} {ip t : Bytes} (h : JFloat neg ip t) (hz : ZerosOK ip) {f : BitVec 64} (hf : E.parseFloat t = some f) :
    NumTok E t ∧ numOf E t = floatNum E f := by
  obtain ⟨fp, ep, hip, hfp, hep, hne, rfl⟩ := h
  have hd := intPart_digits hip
  exact floatTok_ok (neg := neg) (ip := ip) (fp := fp) (ep := ep) ⟨hd.1, hfp, hep, hne, fun h => absurd h hd.2.1, hz, rfl⟩ hf

theorem jnum_tok {E : Env} {t : Bytes} (h : JNum t) (hok : NumOK E t) : NumTok E t := by
  rcases h with ⟨neg, ip, h⟩ | ⟨neg, ip, h⟩
  · have := hok.1 neg ip h
    exact (jint_num h this.1 this.2).1
  · have := hok.2 neg ip h
    match hf : E.parseFloat t with
    | none => exact absurd hf this.1
    | some f => exact (jfloat_num h this.2 hf).1

theorem _root_.Spec.Ws.blank {w : Bytes} (h : Ws w) : Blank w := fun c hc => by
  rcases h c hc with h | h | h | h <;> simp [h]

theorem NumEnd_ws {w : Bytes} (h : Ws w) (c : UInt8) (hc : ¬ NumChar c) (t : Bytes) : NumEnd (w ++ c :: t) := by
  intro d t' he
  cases w with
  | nil => simp at he; rw [← he.1]; exact hc
  | cons a w =>
    simp at he
    rw [← he.1]
    have := h a (by simp)
    unfold NumChar Digit
    rcases this with rfl | rfl | rfl | rfl <;> decide

theorem Follow_ws {j : J} {w : Bytes} (h : Ws w) (c : UInt8) (hc : ¬ NumChar c) (t : Bytes) : Follow j (w ++ c :: t) := by
  cases j <;> simp only [Follow]
  exact NumEnd_ws h c hc t

theorem notNumChar : ¬ NumChar 0x5D ∧ ¬ NumChar 0x7D ∧ ¬ NumChar 0x2C := by
  unfold NumChar Digit; decide

/-- a JSON value text is an accepted value text -/
theorem strict_val_gen {P Q : Bytes → Prop} (hP : ∀ t, JNum t → P t → Q t) {txt : Bytes} {j : J} (h : JVal txt j) : j.AllNums P → LVal Q txt j := by
  refine @JVal.rec (fun txt j _ => j.AllNums P → LVal Q txt j)
    (fun t xs _ => AllNumsL P xs → LElems Q (t ++ [0x5D]) xs)
    (fun t ms _ => AllNumsM P ms → LMems Q (t ++ [0x7D]) ms)
    ?null ?tru ?fls ?num ?str ?arrNil ?arr ?objNil ?obj ?eone ?econs ?mone ?mcons txt j h
  case null => exact fun _ => .null
  case tru => exact fun _ => .tru
  case fls => exact fun _ => .fls
  case num => exact fun t h ho => .num t (hP t h ho)
  case str =>
    rintro t d ⟨body, rfl, hb⟩ _
    exact .str body d hb.lenient
  case arrNil => exact fun w hw _ => .arr _ _ (.nil w hw.blank.sep)
  case arr => exact fun t xs _ ih ho => .arr _ _ (ih ho)
  case objNil => exact fun w hw _ => .obj _ _ (.nil w hw.blank.sep)
  case obj => exact fun t xs _ ih ho => .obj _ _ (ih ho)
  case eone =>
    intro w1 t w2 v h1 _ h2 ih ho
    rw [List.append_assoc]
    exact .cons w1 t (w2 ++ [0x5D]) v [] h1.blank.sep (ih ho.1) (.nil w2 h2.blank.sep) (Follow_ws h2 _ notNumChar.1 _)
  case econs =>
    intro w1 t w2 ts v vs h1 _ h2 _ ih ihs ho
    have hs : LElems Q (w2 ++ [0x2C] ++ (ts ++ [0x5D])) vs := LElems_sep (h2.blank.sep.append Sep_comma) (ihs ho.2)
    have := LElems.cons w1 t _ v vs h1.blank.sep (ih ho.1) hs (by simpa using Follow_ws h2 _ notNumChar.2.2 _)
    simpa using this
  case mone =>
    rintro w1 k w2 w3 t w4 d v h1 ⟨body, rfl, hb⟩ h2 h3 _ h4 ih ho
    have := LMems.cons w1 body w2 w3 t (w4 ++ [0x7D]) d v [] h1.blank.sep hb.lenient h2.blank h3.blank (ih ho.1) (.nil w4 h4.blank.sep)
      (Follow_ws h4 _ notNumChar.2.1 _)
    simpa using this
  case mcons =>
    rintro w1 k w2 w3 t w4 d ts v vs h1 ⟨body, rfl, hb⟩ h2 h3 _ h4 _ ih ihs ho
    have hs : LMems Q (w4 ++ [0x2C] ++ (ts ++ [0x7D])) vs := LMems_sep (h4.blank.sep.append Sep_comma) (ihs ho.2)
    have := LMems.cons w1 body w2 w3 t _ d v vs h1.blank.sep hb.lenient h2.blank h3.blank (ih ho.1) hs
      (by simpa using Follow_ws h4 _ notNumChar.2.2 _)
    simpa using this

theorem strict_val_of (E : Env) {P : Bytes → Prop} (hP : ∀ t, JNum t → P t → NumTok E t) {txt : Bytes} {j : J} (h : JVal txt j) : j.AllNums P → LVal (NumTok E) txt j :=
  strict_val_gen hP h

theorem strict_val (E : Env) {txt : Bytes} {j : J} (h : JVal txt j) : j.AllNums (NumOK E) → LVal (NumTok E) txt j :=
  strict_val_of E (fun _ h ho => jnum_tok h ho) h

theorem strict_text (E : Env) {s : Bytes} {j : J} (h : JText s j) (ho : j.AllNums (NumOK E)) : LText (NumTok E) s j := by
  obtain ⟨w1, t, w2, rfl, h1, h2, h3⟩ := h
  exact ⟨w1, t, w2, rfl, h1.blank, strict_val E h2 ho, h3.blank⟩

end JV
