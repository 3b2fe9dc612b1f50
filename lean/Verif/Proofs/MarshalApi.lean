import Verif.Proofs.Marshal
import Verif.Proofs.Api
import Verif.Proofs.NumText
import Verif.Proofs.History
/-! Marshal as a whole. -/
namespace JV
open Spec

variable {E : Env} {S : SortFn}

/-- the options of one call -/
def optOf (d : Opt) (opts : List MOpt) : Opt := combineOptions d opts
/-- its escape table -/
def escOf (d : Opt) (opts : List MOpt) : Escaper := parseEscapingFuncs (optOf d opts).escProps

theorem optOf_escaper (d : Opt) (opts : List MOpt) : (optOf d opts).escaper = some (escOf d opts) := rfl

/-- the text written for a value -/
def textOf (E : Env) (S : SortFn) (d : Opt) (v : V) (opts : List MOpt) : Bytes :=
  (doc E S (optOf d opts) (escOf d opts) v none).print (optOf d opts).indent 0

theorem marshal_eq (d : Opt) {v : V} (hv : Marshalable v) (opts : List MOpt) :
    marshal E S d v opts = match errOf (optOf d opts) v with
      | some e => .ok ([], some e)
      | none => .ok (textOf E S d v opts, none) := by
  obtain ⟨h1, h2, h3⟩ := hv
  have h4 : v ≠ .nilp := fun h => h2 [] (by rw [h]; rfl)
  have hw := marshalTo_writes (E := E) (S := S) (optOf_escaper d opts) v h1 h2 none {}
  have : marshal E S d v opts = (do
    let (st, e) ← marshalTo E S (combineOptions d opts) v none {}
    match e with
    | some e => pure ([], some e)
    | none => pure (st.buf, none)) := by
    unfold marshal
    split
    · exact absurd rfl h4
    · exact absurd rfl h3
    · rfl
  rw [this, show combineOptions d opts = optOf d opts from rfl, hw]
  simp only [R.bind_ok]
  cases errOf (optOf d opts) v with
  | some e => rfl
  | none => simp [textOf, MSt.w]

theorem marshal_ok {d : Opt} {v : V} (hv : Marshalable v) {opts : List MOpt} {b : Bytes} (h : marshal E S d v opts = .ok (b, none)) :
    errOf (optOf d opts) v = none ∧ b = textOf E S d v opts := by
  rw [marshal_eq d hv] at h
  cases he : errOf (optOf d opts) v with
  | some e => rw [he] at h; simp at h
  | none => rw [he] at h; simp at h; exact ⟨rfl, h.symm⟩

theorem built_marshalable {v : V} (h : Built E Solid v) : Marshalable v := by
  refine ⟨?_, ?_, ?_⟩
  · intro l c hc
    have := built_solid h l c hc
    cases c with
    | obj n kvs low => exact this.1.1
    | _ => trivial
  · intro l hl; exact (built_solid h l _ hl).2.1 rfl
  · intro hl; exact (built_solid h [] _ rfl).2.2 hl

/-! ### decimal texts -/

theorem natDigits_ind {P : Nat → Bytes → Prop} (h0 : ∀ n, n < 10 → P n [UInt8.ofNat (48 + n)])
    (h1 : ∀ n t, 10 ≤ n → P (n / 10) t → P n (t ++ [UInt8.ofNat (48 + n % 10)])) (n : Nat) : P n (natDigits n) := by
  induction n using Nat.strongRecOn with
  | _ n ih =>
    unfold natDigits
    split
    · exact h0 n ‹_›
    · exact h1 n _ (by omega) (ih (n / 10) (by omega))

theorem digitOf {k : Nat} (h : k < 10) : (UInt8.ofNat (48 + k)).toNat = 48 + k := toNat_ofNat (by omega)

theorem decVal_snoc (t : Bytes) (c : UInt8) : decVal (t ++ [c]) = 10 * decVal t + (c.toNat - 0x30) := by
  simp [decVal, List.foldl_append]

theorem natDigits_spec (n : Nat) : Digits (natDigits n) ∧ natDigits n ≠ [] ∧ decVal (natDigits n) = n ∧
    (0 < n → ∃ d ds, natDigits n = d :: ds ∧ 0x31 ≤ d.toNat) := by
  refine natDigits_ind (P := fun n t => Digits t ∧ t ≠ [] ∧ decVal t = n ∧ (0 < n → ∃ d ds, t = d :: ds ∧ 0x31 ≤ d.toNat)) ?_ ?_ n
  · intro n hn
    have := digitOf hn
    refine ⟨?_, by simp, ?_, fun h => ⟨_, [], rfl, by rw [this]; omega⟩⟩
    · intro c hc; rw [List.mem_singleton] at hc; subst hc; unfold Digit; omega
    · simp only [decVal, List.foldl_cons, List.foldl_nil, this]; omega
  · intro n t hn ⟨h1, h2, h3, h4⟩
    have hd := digitOf (k := n % 10) (by omega)
    refine ⟨?_, by simp, ?_, fun h => ?_⟩
    · intro c hc
      rcases List.mem_append.1 hc with hc | hc
      · exact h1 c hc
      · rw [List.mem_singleton] at hc; subst hc; unfold Digit; omega
    · rw [decVal_snoc, h3, hd]; omega
    · obtain ⟨d, ds, rfl, hd⟩ := h4 (by omega)
      exact ⟨d, _, rfl, hd⟩

theorem natDigits_intPart (n : Nat) : IntPart (natDigits n) := by
  obtain ⟨h1, h2, h3, h4⟩ := natDigits_spec n
  by_cases hn : n = 0
  · subst hn; left; simp [natDigits]
  · obtain ⟨d, ds, he, hd⟩ := h4 (by omega)
    right
    refine ⟨d, ds, he, hd, ?_, fun c hc => h1 c (by simp [he, hc])⟩
    have := h1 d (by simp [he]); exact this.2

theorem fmtInt_spec (i : BitVec 64) : ∃ ip, JInt (decide (i.toInt < 0)) ip (fmtInt i) ∧ intVal (decide (i.toInt < 0)) ip = i.toInt := by
  refine ⟨natDigits i.toInt.natAbs, ⟨natDigits_intPart _, ?_⟩, ?_⟩
  · unfold fmtInt sign; by_cases h : i.toInt < 0 <;> simp [h]
  · unfold intVal; rw [(natDigits_spec _).2.2.1]; by_cases h : i.toInt < 0 <;> simp [h] <;> omega

theorem fmtUint_spec (u : BitVec 64) : ∃ ip, JInt false ip (fmtUint u) ∧ intVal false ip = u.toNat := by
  refine ⟨natDigits u.toNat, ⟨natDigits_intPart _, by simp [fmtUint, sign]⟩, ?_⟩
  unfold intVal; rw [(natDigits_spec _).2.2.1]; simp

theorem jint_not_float {neg : Bool} {ip t : Bytes} (h : JInt neg ip t) : ∀ neg' ip', ¬ JFloat neg' ip' t := by
  rintro neg' ip' ⟨fp, ep, h1, h2, h3, h4, h5⟩
  have hd := (intPart_digits h.1).1
  have key : ∀ c ∈ t, Digit c ∨ c = 0x2D := by
    intro c hc
    rw [h.2] at hc
    rcases List.mem_append.1 hc with hc | hc
    · cases neg <;> simp [sign] at hc; exact .inr hc
    · exact .inl (hd c hc)
  have : ∃ c ∈ t, c = 0x2E ∨ c = 0x65 ∨ c = 0x45 := by
    rcases h2 with rfl | ⟨ds, rfl, -⟩
    · rcases h3 with rfl | ⟨e, sg, ds, rfl, he, -⟩
      · simp at h4
      · exact ⟨e, by rw [h5]; simp, by rcases he with rfl | rfl <;> simp⟩
    · exact ⟨0x2E, by rw [h5]; simp, .inl rfl⟩
  obtain ⟨c, hc, he⟩ := this
  have := key c hc
  unfold Digit at this
  rcases he with rfl | rfl | rfl <;> simp at this

theorem jint_ok (E : Env) {neg : Bool} {ip t : Bytes} (h : JInt neg ip t) (h1 : -2 ^ 63 ≤ intVal neg ip) (h2 : intVal neg ip < 2 ^ 64) : NumOK E t := by
  constructor
  · intro neg' ip' h'
    have : intVal neg' ip' = intVal neg ip := by
      have e := h.2.symm.trans h'.2
      have d1 := (intPart_digits h.1); have d2 := (intPart_digits h'.1)
      cases neg <;> cases neg' <;> simp [sign] at e
      · rw [e]
      · have := d1.1 0x2D (by rw [e]; simp); unfold Digit at this; simp at this
      · have := d2.1 0x2D (by rw [← e]; simp); unfold Digit at this; simp at this
      · rw [e]
    rw [this]; exact ⟨h1, h2⟩
  · intro neg' ip' h'; exact absurd h' (jint_not_float h neg' ip')

/-- an integer literal inside the range reads back -/
theorem unmarshal_int (E : Env) {neg : Bool} {ip t : Bytes} (h : JInt neg ip t) (h1 : -2 ^ 63 ≤ intVal neg ip) (h2 : intVal neg ip < 2 ^ 64) :
    ∃ n, unmarshal E t = .ok (.num t n) ∧ NumDenotes E t n := by
  have hok := jint_ok E h h1 h2
  exact ⟨_, unmarshal_numTok (jnum_tok (.inl ⟨neg, ip, h⟩) hok), numDenotes hok⟩

/-! ### texts -/

theorem marshalable_scalar {v : V} (h : IsScalar v) (h1 : v ≠ .nilp) (h2 : v ≠ .notExist) : Marshalable v := by
  have hc : ∀ s, v.child s = none := by intro s; cases v <;> first | rfl | cases h
  have hat : ∀ l c, v.at l = some c → c = v := by
    intro l c hl
    cases l with
    | nil => cases hl; rfl
    | cons s l => rw [V.at, hc s] at hl; cases hl
  refine ⟨?_, ?_, h2⟩
  · intro l c hl; rw [hat l c hl]; cases v <;> first | trivial | cases h
  · intro l hl; exact h1 (hat l _ hl).symm

theorem special_src {src : Bytes} (n : Num) (h : src ≠ []) : special src n = none := by unfold special; rw [if_pos h]

theorem marshal_num (E : Env) (S : SortFn) (d : Opt) (opts : List MOpt) {src : Bytes} (n : Num) (h : src ≠ []) : marshal E S d (.num src n) opts = .ok (src, none) := by
  rw [marshal_eq d (marshalable_scalar (v := .num src n) trivial (by simp) (by simp))]
  simp [errOf, special_src n h, textOf, doc, numText, Doc.print]

theorem marshal_str (E : Env) (S : SortFn) (d : Opt) (opts : List MOpt) (s : Bytes) : marshal E S d (.str s) opts = .ok (0x22 :: escText (escOf d opts) s ++ [0x22], none) := by
  rw [marshal_eq d (marshalable_scalar (v := .str s) trivial (by simp) (by simp))]
  simp [errOf, textOf, doc, Doc.print]

theorem escOf_ok (d : Opt) (opts : List MOpt) : ∀ n, n < 128 → EscOK n ((escOf d opts).ascii n) := fun n hn => parseEscaping_ok _ n hn

/-- Marshal writes JSON -/
theorem marshal_strict (hS : GoodSort S) (d : Opt) {v : V} (hv : Marshalable v) {opts : List MOpt} {b : Bytes}
    (hp : Her (Printable E (optOf d opts) JNum (fun s => 0xB ∉ s)) v) (hn : Her (NothingOmitted (optOf d opts)) v) (hi : WsIndent (optOf d opts).indent)
    (h : marshal E S d v opts = .ok (b, none)) : ∃ j, JText b j ∧ Shows E (optOf d opts) (ordOf S (optOf d opts)) [] v j := by
  obtain ⟨-, rfl⟩ := marshal_ok hv h
  obtain ⟨j, h1, h2⟩ := doc_shows (E := E) (o := optOf d opts) (C := Commas) hS (strOK_strict (escOf_ok d opts)) (CN := NothingOmitted (optOf d opts)) (by
    intro n kvs low hc es par f hes
    refine (docMems_commas es ?_).2
    intro e he
    cases ho : (optOf d opts).omitNull with
    | false => simp
    | true => simp [hc ho e (hes e he)]) v hv.1 hp hn [] none (fun _ => ⟨fun _ => rfl, fun h => absurd rfl h⟩) (fun _ => rfl)
  exact ⟨j, ⟨[], _, [], by simp [textOf], ws_nil, docJ_strict hi h2 0, ws_nil⟩, h1⟩

/-- Marshal writes what the parser reads back -/
theorem marshal_lenient (hS : GoodSort S) (d : Opt) {v : V} (hv : Marshalable v) {opts : List MOpt} {b : Bytes} {num : Bytes → Prop}
    (hp : Her (Printable E (optOf d opts) num (fun _ => True)) v) (hi : BlankIndent (optOf d opts).indent)
    (h : marshal E S d v opts = .ok (b, none)) : ∃ j, LText num b j ∧ Shows E (optOf d opts) (ordOf S (optOf d opts)) [] v j := by
  obtain ⟨-, rfl⟩ := marshal_ok hv h
  obtain ⟨j, h1, h2⟩ := doc_shows (E := E) (o := optOf d opts) (C := fun _ => True) hS (strOK_lenient (escOf_ok d opts)) (CN := fun _ => True) (by
    intro n kvs low hc es par f hes; trivial) v hv.1 hp (fun _ _ _ => trivial) [] none (fun _ => ⟨fun _ => rfl, fun h => absurd rfl h⟩) (fun _ => rfl)
  exact ⟨j, ⟨[], _, [], by simp [textOf], Blank_nil, docJ_lenient hi h2 0, Blank_nil⟩, h1⟩

theorem printable_errOf {num str : Bytes → Prop} {o : Opt} {v : V} (h : Printable E o num str v) : errOf o v = none := by
  cases v with
  | num src n =>
    simp only [errOf]
    cases hs : special src n with
    | none => rfl
    | some s =>
      obtain ⟨j, hj, -⟩ := h.2 s hs
      simp only
      cases hj <;> simp_all [specErr]
      all_goals (cases s <;> simp_all [specErr])
  | _ => rfl

theorem marshal_printable (d : Opt) {v : V} (hv : Marshalable v) {opts : List MOpt} {num str : Bytes → Prop}
    (hp : Printable E (optOf d opts) num str v) : marshal E S d v opts = .ok (textOf E S d v opts, none) := by
  rw [marshal_eq d hv, printable_errOf hp]

theorem shows_mono {o : Opt} {ord ord' : List Step → List Ent → List Ent → Prop} (h : ∀ l k e, ord l k e → ord' l k e) {l : List Step} {v : V} {j : J}
    (hs : Shows E o ord l v j) : Shows E o ord' l v j := by
  induction hs with
  | null l => exact .null l
  | bool l b => exact .bool l b
  | str l s d hd => exact .str l s d hd
  | num l src n hn => exact .num l src n hn
  | spec l src n s j h1 h2 => exact .spec l src n s j h1 h2
  | arr l xs js h1 _ ih => exact .arr l xs js h1 ih
  | obj l n kvs low es ms h1 h2 h3 h4 _ ih => exact .obj l n kvs low es ms h1 (h _ _ _ h2) h3 h4 ih

end JV
