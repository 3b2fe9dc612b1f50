import Verif.Proofs.LUnique
import Verif.Proofs.NumText
import Verif.Proofs.Typed
/-! Exactly which JSON texts the parser takes. -/
namespace JV
open Spec

theorem numTok_shape (E : Env) : TokShape (NumTok E) := by
  rintro t ⟨⟨c, u, rfl, hc⟩, n, hn⟩
  refine ⟨⟨c, u, rfl, ?_⟩, ?_⟩
  · unfold isNumStart at hc
    simp only [Bool.or_eq_true, beq_iff_eq] at hc
    have := (numChar_facts c).1.1
    grind
  · exact numTok_chars ⟨⟨c, u, rfl, hc⟩, n, hn⟩

theorem jnum_tokShape : TokShape JNum := fun _ h => jnum_shape h

/-- number literals of JSON that the parser takes -/
theorem jfloat_tok_iff {E : Env} {neg : Bool} {ip t : Bytes} (h : JFloat neg ip t) : NumTok E t ↔ ZerosOK ip ∧ E.parseFloat t ≠ none := by
  constructor
  · intro hn
    obtain ⟨fp, ep, h1, h2, h3, h4, rfl⟩ := id h
    have hd := intPart_digits h1
    have hne : sign neg ++ ip ≠ [] := by simp [hd.2.1]
    have hf : ∃ ds, (fp = [] ∨ (fp = 0x2E :: ds ∧ Digits ds)) := by
      rcases h2 with h2 | ⟨ds, g1, g2, g3⟩
      · exact ⟨[], .inl h2⟩
      · exact ⟨ds, .inr ⟨g1, g3⟩⟩
    obtain ⟨ds, hf⟩ := hf
    have hz : ZerosOK ip := by
      by_cases hz : ZerosOK ip
      · exact hz
      · have := (float_scan neg ip fp ds ep hd.1 hf h3 hne).2 (mt (zerosFrom_sign neg ip).1 hz)
        obtain ⟨c, u, hcu, -⟩ := sign_start neg ip (fp ++ ep) hd.1 hne
        simp only [List.append_assoc] at hcu this hn
        rw [hcu] at this hn
        exact absurd hn (not_NumTok_of this)
    refine ⟨hz, fun hp => ?_⟩
    obtain ⟨⟨c, u, hcu, hc⟩, n, hn⟩ := hn
    have ht : FloatTok neg ip fp ep (sign neg ++ ip ++ fp ++ ep) := ⟨hd.1, h2, h3, h4, fun h => absurd h hd.2.1, hz, rfl⟩
    rw [floatTok_parse ht c u hcu] at hn
    unfold floatResult at hn
    rw [hp] at hn
    cases hn
  · rintro ⟨hz, hp⟩
    match hf : E.parseFloat t with
    | none => exact absurd hf hp
    | some f => exact (jfloat_num h hz hf).1

theorem jint_tok_iff {E : Env} {neg : Bool} {ip t : Bytes} (h : JInt neg ip t) :
    NumTok E t ↔ (-2 ^ 63 ≤ intVal neg ip ∧ intVal neg ip < 2 ^ 64) ∨ (neg = false ∧ ip.length = 20 ∧ 10 ^ 19 ≤ decVal ip % 2 ^ 64) := by
  obtain ⟨h1, rfl⟩ := id h
  have hd := intPart_digits h1
  constructor
  · intro hn
    have hi := ((intTok_iff neg ip hd.1).1.1 hn).2.2
    by_cases hr : -2 ^ 63 ≤ intVal neg ip ∧ intVal neg ip < 2 ^ 64
    · exact .inl hr
    right
    have hlt := decVal_le ip hd.1
    unfold intVal at hr
    cases neg
    · simp only [Bool.false_eq_true, if_false] at hr hi
      refine ⟨rfl, ?_⟩
      rcases hi.2 with hl | hl
      · exfalso
        have : 10 ^ ip.length ≤ 10 ^ 19 := Nat.pow_le_pow_right (by decide) hl
        omega
      · exact hl
    · exfalso
      simp only [if_true] at hr hi
      rcases hi.2 with hl | hl
      · have : 10 ^ ip.length ≤ 10 ^ 18 := Nat.pow_le_pow_right (by decide) hl
        omega
      · omega
  · rintro (⟨h2, h3⟩ | ⟨rfl, h2, h3⟩)
    · exact (jint_num h h2 h3).1
    · refine (intTok_iff false ip hd.1).1.2 ⟨hd.1, hd.2.1, ?_⟩
      simp only [Bool.false_eq_true, if_false]
      exact ⟨hd.2.2, .inr ⟨h2, h3⟩⟩


/-- a JSON text is accepted exactly if all its number literals are -/
theorem jtext_taken (E : Env) {s : Bytes} {j : J} (h : JText s j) : (∃ v, unmarshal E s = .ok v) ↔ j.AllNums (NumTok E) := by
  constructor
  · rintro ⟨v, hv⟩
    obtain ⟨j', hj, -⟩ := (unmarshal_iff E s v).1 hv
    have hs : TokShape (fun t => NumTok E t ∨ JNum t) := fun t ht => ht.elim (numTok_shape E t) (jnum_tokShape t)
    obtain ⟨w1, t, w2, e, h1, h2, h3⟩ := h
    have hl : LText (fun t => NumTok E t ∨ JNum t) s j := ⟨w1, t, w2, e, h1.blank, strict_val_gen (P := fun _ => True) (fun t h _ => .inr h) h2 (AllNums_true j), h3.blank⟩
    have hl' : LText (fun t => NumTok E t ∨ JNum t) s j' := by
      obtain ⟨b1, t, b2, e, h1, h2, h3⟩ := hj
      exact ⟨b1, t, b2, e, h1, lval_mono (fun _ => .inl) h2, h3⟩
    rw [ltext_unique hs hl hl']
    obtain ⟨b1, t, b2, e, h1, h2, h3⟩ := hj
    exact lval_nums h2
  · intro hn
    obtain ⟨w1, t, w2, rfl, h1, h2, h3⟩ := h
    exact ⟨toV E j, (unmarshal_iff E _ _).2 ⟨j, ⟨w1, t, w2, rfl, h1.blank, strict_val_gen (fun _ _ h => h) h2 hn, h3.blank⟩, rfl⟩⟩

end JV
