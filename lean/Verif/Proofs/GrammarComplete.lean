import Verif.Proofs.Grammar
/-! Texts of the lenient grammar are accepted with the value they denote. -/
namespace JV
open Spec

theorem arrLoop_sep {E : Env} {s : Bytes} (h : Spec.Sep s) : ∀ (f : Nat) (t : Bytes) (acc : List V), s.length < f →
    ∃ f', f ≤ f' + s.length ∧ arrLoop E f (s ++ t) acc = arrLoop E f' t acc := by
  induction s with
  | nil => intro f t acc _; exact ⟨f, by simp, rfl⟩
  | cons c s ih =>
    intro f t acc hf
    have hs : Spec.Sep s := fun x hx => h x (by simp [hx])
    match f with
    | 0 => omega
    | f+1 =>
      simp at hf
      by_cases hb : isBlank c = true
      · obtain ⟨f', h1, h2⟩ := ih hs (f+1) t acc (by omega)
        refine ⟨f', by simp; omega, ?_⟩
        rw [← h2]
        have : skipBlanks (c :: (s ++ t)) = skipBlanks (s ++ t) := by simp [skipBlanks, hb]
        simp only [List.cons_append, arrLoop, this]
      · have hc : c = 0x2C := by
          have hb' := mt (isBlank_iff c).2 hb
          rcases h c (by simp) with h | h | h | h | h | h <;> simp_all
        obtain ⟨f', h1, h2⟩ := ih hs f t acc (by omega)
        refine ⟨f', by simp; omega, ?_⟩
        rw [← h2]
        have : skipBlanks (c :: (s ++ t)) = c :: (s ++ t) := skipBlanks_nb (by simpa using hb)
        subst hc
        simp only [List.cons_append, arrLoop, this]
        simp

theorem objLoop_sep {E : Env} {s : Bytes} (h : Spec.Sep s) : ∀ (f : Nat) (t : Bytes) (st : OSt), s.length < f → st.key = none →
    ∃ f', f ≤ f' + s.length ∧ objLoop E f (s ++ t) st = objLoop E f' t st := by
  induction s with
  | nil => intro f t st _ _; exact ⟨f, by simp, rfl⟩
  | cons c s ih =>
    intro f t st hf hk
    have hs : Spec.Sep s := fun x hx => h x (by simp [hx])
    match f with
    | 0 => omega
    | f+1 =>
      simp at hf
      by_cases hb : isBlank c = true
      · obtain ⟨f', h1, h2⟩ := ih hs (f+1) t st (by omega) hk
        refine ⟨f', by simp; omega, ?_⟩
        rw [← h2]
        have : skipBlanks (c :: (s ++ t)) = skipBlanks (s ++ t) := by simp [skipBlanks, hb]
        simp only [List.cons_append, objLoop, this]
      · have hc : c = 0x2C := by
          have hb' := mt (isBlank_iff c).2 hb
          rcases h c (by simp) with h | h | h | h | h | h <;> simp_all
        obtain ⟨f', h1, h2⟩ := ih hs f t st (by omega) hk
        refine ⟨f', by simp; omega, ?_⟩
        rw [← h2]
        have : skipBlanks (c :: (s ++ t)) = c :: (s ++ t) := skipBlanks_nb (by simpa using hb)
        subst hc
        simp only [List.cons_append, objLoop, this, hk]
        simp

theorem objLoop_blank {E : Env} {b : Bytes} (h : Blank b) (f : Nat) (t : Bytes) (st : OSt) :
    objLoop E f (b ++ t) st = objLoop E f t st := by
  match f with
  | 0 => simp [objLoop]
  | f+1 => simp only [objLoop, skipBlanks_blank h]

/-- what the parser does with a value text -/
def ValOK (E : Env) (txt : Bytes) (j : J) : Prop :=
  ∃ c t, txt = c :: t ∧ isBlank c = false ∧ c ≠ 0x5D ∧ c ≠ 0x2C ∧ c ≠ 0x7D ∧ c ≠ 0x3A ∧
    ((c = 0x7B ∧ ∀ f rest, (t ++ rest).length < f → objLoop E f (t ++ rest) {} = .ok (toV E j, rest)) ∨
     (c = 0x5B ∧ ∀ f rest, (t ++ rest).length < f → arrLoop E f (t ++ rest) [] = .ok (toV E j, rest)) ∨
     (c ≠ 0x7B ∧ c ≠ 0x5B ∧ (c = 0x22 ∨ isNumStart c = true ∨ c = 0x74 ∨ c = 0x66 ∨ c = 0x6E) ∧
      ∀ f rest, (t ++ rest).length < f → Follow j rest → parseScalar E f c (t ++ rest) = .ok (some (toV E j, rest))))

theorem isNumStart_facts {c : UInt8} (h : isNumStart c = true) : isBlank c = false ∧ c ≠ 0x5D ∧ c ≠ 0x2C ∧ c ≠ 0x7D ∧ c ≠ 0x3A ∧ c ≠ 0x7B ∧ c ≠ 0x5B ∧ c ≠ 0x22 := by
  have key : ∀ n : Fin 256, let c := UInt8.ofNat n.1; isNumStart c = true → isBlank c = false ∧ c ≠ 0x5D ∧ c ≠ 0x2C ∧ c ≠ 0x7D ∧ c ≠ 0x3A ∧ c ≠ 0x7B ∧ c ≠ 0x5B ∧ c ≠ 0x22 := by
    decide +kernel
  have := key ⟨c.toNat, c.toNat_lt⟩
  simp only [UInt8.ofNat_toNat] at this
  exact this h

theorem valOK_lit {E : Env} (c : UInt8) (lit : Bytes) (j : J) (hb : isBlank c = false ∧ c ≠ 0x5D ∧ c ≠ 0x2C ∧ c ≠ 0x7D ∧ c ≠ 0x3A ∧ c ≠ 0x7B ∧ c ≠ 0x5B)
    (hc : c = 0x22 ∨ isNumStart c = true ∨ c = 0x74 ∨ c = 0x66 ∨ c = 0x6E)
    (h : ∀ f rest, parseScalar E f c (lit ++ rest) = .ok (some (toV E j, rest))) : ValOK E (c :: lit) j :=
  ⟨c, lit, rfl, hb.1, hb.2.1, hb.2.2.1, hb.2.2.2.1, hb.2.2.2.2.1, .inr (.inr ⟨hb.2.2.2.2.2.1, hb.2.2.2.2.2.2, hc, fun f rest _ _ => h f rest⟩)⟩

theorem parseScalar_quote {E : Env} {f : Nat} {t rest : Bytes} {v : V} (h : parseScalar E f 0x22 t = .ok (some (v, rest))) :
    ∃ s, v = .str s ∧ strLoop f t [] = .ok (s, rest) := by
  unfold parseScalar at h
  rw [if_neg (by decide), if_pos rfl] at h
  match hs : strLoop f t [] with
  | .ok (s, r) =>
    simp only [hs, R.bind_ok, R.pure_eq, R.ok.injEq, Option.some.injEq, Prod.mk.injEq] at h
    obtain ⟨rfl, rfl⟩ := h
    exact ⟨s, rfl, rfl⟩
  | .err e => simp [hs] at h
  | .panic => simp [hs] at h
  | .diverge => simp [hs] at h

theorem arr_step {E : Env} {txt : Bytes} {j : J} (h : ValOK E txt j) (f : Nat) (rest : Bytes) (acc : List V) (hf : (txt ++ rest).length < f) (hF : Follow j rest) :
    ∃ f', f ≤ f' + 1 ∧ arrLoop E f (txt ++ rest) acc = arrLoop E f' rest (acc ++ [toV E j]) := by
  obtain ⟨c, t, rfl, hb, h1, h2, h3, h4, hc⟩ := h
  match f with
  | 0 => omega
  | f+1 =>
    refine ⟨f, by omega, ?_⟩
    simp only [List.cons_append, List.length_cons] at hf
    simp only [List.cons_append, arrLoop, skipBlanks_nb hb, h1, h2, if_false]
    rcases hc with ⟨rfl, h⟩ | ⟨rfl, h⟩ | ⟨g1, g2, -, h⟩
    · rw [if_pos rfl, h f rest (by omega)]; rfl
    · rw [if_neg (by decide), if_pos rfl, h f rest (by omega)]; rfl
    · rw [if_neg g1, if_neg g2, h (f+1) rest (by omega) hF]; rfl

theorem obj_step {E : Env} {txt : Bytes} {j : J} (h : ValOK E txt j) (f : Nat) (rest k : Bytes) (incr : BitVec 32) (kvs : List Ent)
    (hf : (txt ++ rest).length < f) (hF : Follow j rest) :
    ∃ f', f ≤ f' + 1 ∧ objLoop E f (txt ++ rest) ⟨some k, true, incr, kvs⟩ = objLoop E f' rest (setMember ⟨some k, true, incr, kvs⟩ k (toV E j)) := by
  obtain ⟨c, t, rfl, hb, h1, h2, h3, h4, hc⟩ := h
  match f with
  | 0 => omega
  | f+1 =>
    refine ⟨f, by omega, ?_⟩
    simp only [List.cons_append, List.length_cons] at hf
    simp only [List.cons_append, objLoop, skipBlanks_nb hb, h3, h2, h4, if_false]
    rcases hc with ⟨rfl, h⟩ | ⟨rfl, h⟩ | ⟨g1, g2, g3, h⟩
    · rw [if_neg (by decide), if_pos (by decide)]
      simp only [Bool.not_true, Bool.false_eq_true, if_false]
      rw [if_pos trivial, h f rest (by omega)]; rfl
    · rw [if_neg (by decide), if_pos (by decide)]
      simp only [Bool.not_true, Bool.false_eq_true, if_false]
      rw [if_neg (by decide), if_pos trivial, h f rest (by omega)]; rfl
    · by_cases hq : c = 0x22
      · subst hq
        obtain ⟨s, hv, hs⟩ := parseScalar_quote (h (f+1) rest (by omega) hF)
        simp only [if_true, Bool.not_true, Bool.false_eq_true, if_false, hs, R.bind_ok, hv]
      · have g3' : c = 0x7B ∨ c = 0x5B ∨ isNumStart c = true ∨ c = 0x74 ∨ c = 0x66 ∨ c = 0x6E := by
          rcases g3 with g | g
          · exact absurd g hq
          · exact .inr (.inr g)
        rw [if_neg hq, if_pos g3']
        simp only [Bool.not_true, Bool.false_eq_true, if_false]
        rw [if_neg g1, if_neg g2, h (f+1) rest (by omega) hF]; rfl

def ElemsOK (E : Env) (body : Bytes) (xs : List J) : Prop :=
  ∀ f rest acc, (body ++ rest).length < f → arrLoop E f (body ++ rest) acc = .ok (.arr (acc ++ toVL E xs), rest)

def MemsOK (E : Env) (body : Bytes) (ms : List Mem) : Prop :=
  ∀ f rest st, (body ++ rest).length < f → st.key = none → st.colon = false →
    objLoop E f (body ++ rest) st = .ok (.obj (toVM E ms st).incr (toVM E ms st).kvs none, rest)

theorem valOK_num {E : Env} {t : Bytes} (h : NumTok E t) : ValOK E t (.num t) := by
  obtain ⟨⟨c, u, rfl, hc⟩, -⟩ := id h
  have hb := isNumStart_facts hc
  refine ⟨c, u, rfl, hb.1, hb.2.1, hb.2.2.1, hb.2.2.2.1, hb.2.2.2.2.1, .inr (.inr ⟨hb.2.2.2.2.2.1, hb.2.2.2.2.2.2.1, .inr (.inl hc), fun f rest _ hF => ?_⟩)⟩
  have := parseNumber_join h hF
  rw [List.cons_append] at this
  simp only [parseScalar, hc, if_true, this, R.bind_ok, R.pure_eq, toV]

theorem valOK_str {E : Env} {t d : Bytes} (h : LStr t d) : ValOK E (0x22 :: t ++ [0x22]) (.str d) := by
  refine ⟨0x22, t ++ [0x22], rfl, by decide, by decide, by decide, by decide, by decide, .inr (.inr ⟨by decide, by decide, .inl rfl, fun f rest hf _ => ?_⟩)⟩
  have := strLoop_complete h f [] rest (by simp at hf; omega)
  unfold parseScalar
  rw [if_neg (by decide), if_pos rfl]
  simp only [List.append_assoc, List.cons_append, List.nil_append, this, R.bind_ok, R.pure_eq, toV]

theorem elemsOK_cons {E : Env} {s t ts : Bytes} {v : J} {vs : List J} (hs : Spec.Sep s) (h1 : ValOK E t v) (hne : ts ≠ []) (h2 : ElemsOK E ts vs) (hF : Follow v ts) :
    ElemsOK E (s ++ t ++ ts) (v :: vs) := by
  intro f rest acc hf
  have e : s ++ t ++ ts ++ rest = s ++ (t ++ (ts ++ rest)) := by simp
  obtain ⟨c, t', ht, -⟩ := id h1
  have hl : 0 < t.length := by rw [ht]; simp
  simp only [List.length_append] at hf
  rw [e]
  obtain ⟨f1, g1, q1⟩ := arrLoop_sep (E := E) hs f (t ++ (ts ++ rest)) acc (by omega)
  obtain ⟨f2, g2, q2⟩ := arr_step h1 f1 (ts ++ rest) acc (by simp; omega) ((Follow_app hne).2 hF)
  rw [q1, q2, h2 f2 rest _ (by simp; omega)]
  simp [toVL]

theorem memsOK_cons {E : Env} {s k b1 b2 t ts d : Bytes} {v : J} {vs : List Mem} (hs : Spec.Sep s) (hk : LStr k d) (hb1 : Blank b1) (hb2 : Blank b2)
    (h1 : ValOK E t v) (hne : ts ≠ []) (h2 : MemsOK E ts vs) (hF : Follow v ts) :
    MemsOK E (s ++ 0x22 :: k ++ 0x22 :: b1 ++ 0x3A :: b2 ++ t ++ ts) (⟨d, v⟩ :: vs) := by
  intro f rest st hf hkey hcol
  obtain ⟨key, colon, incr, kvs⟩ := st
  simp only at hkey hcol
  subst hkey hcol
  have e : s ++ 0x22 :: k ++ 0x22 :: b1 ++ 0x3A :: b2 ++ t ++ ts ++ rest = s ++ (0x22 :: (k ++ 0x22 :: (b1 ++ 0x3A :: (b2 ++ (t ++ (ts ++ rest)))))) := by simp
  simp only [List.length_append, List.length_cons] at hf
  rw [e]
  obtain ⟨f1, g1, q1⟩ := objLoop_sep (E := E) hs f (0x22 :: (k ++ 0x22 :: (b1 ++ 0x3A :: (b2 ++ (t ++ (ts ++ rest)))))) ⟨none, false, incr, kvs⟩ (by omega) rfl
  rw [q1]
  match f1 with
  | 0 => omega
  | f1+1 =>
    have hsl := strLoop_complete hk (f1+1) [] (b1 ++ 0x3A :: (b2 ++ (t ++ (ts ++ rest)))) (by omega)
    have hq : isBlank 0x22 = false := by decide
    have ha : objLoop E (f1+1) (0x22 :: (k ++ 0x22 :: (b1 ++ 0x3A :: (b2 ++ (t ++ (ts ++ rest)))))) ⟨none, false, incr, kvs⟩ =
        objLoop E f1 (b1 ++ 0x3A :: (b2 ++ (t ++ (ts ++ rest)))) ⟨some d, false, incr, kvs⟩ := by
      rw [objLoop, skipBlanks_nb hq]
      simp only
      rw [if_neg (by decide), if_neg (by decide), if_neg (by decide), if_pos trivial, hsl]
      rfl
    rw [ha, objLoop_blank hb1]
    match f1 with
    | 0 => omega
    | f1+1 =>
      have hq : isBlank 0x3A = false := by decide
      have hc : objLoop E (f1+1) (0x3A :: (b2 ++ (t ++ (ts ++ rest)))) ⟨some d, false, incr, kvs⟩ =
          objLoop E f1 (b2 ++ (t ++ (ts ++ rest))) ⟨some d, true, incr, kvs⟩ := by
        rw [objLoop, skipBlanks_nb hq]
        simp only
        rw [if_neg (by decide), if_neg (by decide), if_pos trivial, if_neg (by simp)]
      rw [hc, objLoop_blank hb2]
      obtain ⟨f2, g2, q2⟩ := obj_step h1 f1 (ts ++ rest) d incr kvs (by simp; omega) ((Follow_app hne).2 hF)
      obtain ⟨c, t', ht, -⟩ := id h1
      have hl : 0 < t.length := by rw [ht]; simp
      rw [q2, h2 f2 rest _ (by simp; omega) rfl rfl]
      simp only [toVM, setMember]

theorem lenient_complete (E : Env) {txt : Bytes} {j : J} (h : LVal (NumTok E) txt j) : ValOK E txt j := by
  refine @LVal.rec (NumTok E) (fun txt j _ => ValOK E txt j) (fun body xs _ => body ≠ [] ∧ ElemsOK E body xs) (fun body ms _ => body ≠ [] ∧ MemsOK E body ms)
    ?null ?tru ?fls ?num ?str ?arr ?obj ?anil ?acons ?mnil ?mcons txt j h
  case null =>
    refine valOK_lit 0x6E [0x75, 0x6C, 0x6C] .null (by decide) (by decide) (fun f rest => ?_)
    have := parseLit_complete litNull rest .notValidNullValue .notValidBoolValue
    unfold parseScalar
    rw [if_neg (by decide), if_neg (by decide), if_neg (by decide), if_neg (by decide), if_pos rfl]
    simp only [litNull, List.cons_append, List.nil_append] at this ⊢
    rw [this]; simp [toV]
  case tru =>
    refine valOK_lit 0x74 [0x72, 0x75, 0x65] (.bool true) (by decide) (by decide) (fun f rest => ?_)
    have := parseLit_complete litTrue rest .notValidBoolValue .notValidBoolValue
    unfold parseScalar
    rw [if_neg (by decide), if_neg (by decide), if_pos rfl]
    simp only [litTrue, List.cons_append, List.nil_append] at this ⊢
    rw [this]; simp [toV]
  case fls =>
    refine valOK_lit 0x66 [0x61, 0x6C, 0x73, 0x65] (.bool false) (by decide) (by decide) (fun f rest => ?_)
    have := parseLit_complete litFalse rest .notValidBoolValue .notValidBoolValue
    unfold parseScalar
    rw [if_neg (by decide), if_neg (by decide), if_neg (by decide), if_pos rfl]
    simp only [litFalse, List.cons_append, List.nil_append] at this ⊢
    rw [this]; simp [toV]
  case num => exact fun t h => valOK_num h
  case str => exact fun t d h => valOK_str h
  case arr =>
    intro t xs _ ih
    refine ⟨0x5B, t, rfl, by decide, by decide, by decide, by decide, by decide, .inr (.inl ⟨rfl, fun f rest hf => ?_⟩)⟩
    rw [ih.2 f rest [] hf]; simp [toV]
  case obj =>
    intro t ms _ ih
    refine ⟨0x7B, t, rfl, by decide, by decide, by decide, by decide, by decide, .inl ⟨rfl, fun f rest hf => ?_⟩⟩
    rw [ih.2 f rest {} hf rfl rfl]; simp [toV]
  case anil =>
    intro s hs
    refine ⟨by simp, fun f rest acc hf => ?_⟩
    simp only [List.length_append, List.length_cons, List.length_nil] at hf
    obtain ⟨f1, g1, q1⟩ := arrLoop_sep (E := E) hs f ([0x5D] ++ rest) acc (by omega)
    rw [List.append_assoc, q1]
    match f1 with
    | 0 => omega
    | f1+1 =>
      have hq : isBlank 0x5D = false := by decide
      simp [arrLoop, skipBlanks_nb hq, toVL]
  case acons =>
    intro s t ts v vs hs _ _ hF h1 h2
    exact ⟨by simp [h2.1], elemsOK_cons hs h1 h2.1 h2.2 hF⟩
  case mnil =>
    intro s hs
    refine ⟨by simp, fun f rest st hf hk hc => ?_⟩
    simp only [List.length_append, List.length_cons, List.length_nil] at hf
    obtain ⟨f1, g1, q1⟩ := objLoop_sep (E := E) hs f ([0x7D] ++ rest) st (by omega) hk
    rw [List.append_assoc, q1]
    match f1 with
    | 0 => omega
    | f1+1 =>
      have hq : isBlank 0x7D = false := by decide
      simp [objLoop, skipBlanks_nb hq, toVM, hk]
  case mcons =>
    intro s k b1 b2 t ts d v vs hs hk hb1 hb2 _ _ hF h1 h2
    exact ⟨by simp, memsOK_cons hs hk hb1 hb2 h1 h2.1 h2.2 hF⟩

theorem parseValue_complete (E : Env) {c : UInt8} {t : Bytes} {j : J} (h : LVal (NumTok E) (c :: t) j) (f : Nat) (rest : Bytes)
    (hf : (t ++ rest).length < f) (hF : Follow j rest) : isBlank c = false ∧ parseValue E f c (t ++ rest) = .ok (toV E j, rest) := by
  obtain ⟨c', t', he, hb, -, -, -, -, hc⟩ := lenient_complete E h
  simp only [List.cons.injEq] at he
  obtain ⟨rfl, rfl⟩ := he
  refine ⟨hb, ?_⟩
  unfold parseValue
  rcases hc with ⟨rfl, h'⟩ | ⟨rfl, h'⟩ | ⟨g1, g2, -, h'⟩
  · rw [if_pos rfl, h' f rest hf]
  · rw [if_neg (by decide), if_pos rfl, h' f rest hf]
  · rw [if_neg g1, if_neg g2, h' f rest hf hF]; rfl

theorem Follow_blank {j : J} {b : Bytes} (h : Blank b) : Follow j b := by
  cases j <;> simp only [Follow]
  intro c t hb hn
  have := h c (by simp [hb])
  unfold NumChar Digit at hn
  rcases this with rfl | rfl | rfl | rfl | rfl <;> revert hn <;> decide

/-- The parser accepts exactly the lenient texts, with the value they denote. -/
theorem unmarshalWithIter_iff (E : Env) (s : Bytes) (v : V) :
    unmarshalWithIter E s = .ok v ↔ ∃ j, LText (NumTok E) s j ∧ v = toV E j := by
  constructor
  · intro h
    unfold unmarshalWithIter at h
    obtain ⟨b, hb, hbl, -⟩ := skipBlanks_spec s
    match hsb : skipBlanks s with
    | [] => simp [hsb] at h
    | c :: t =>
      rw [hsb] at hb
      simp only [hsb] at h
      match hv : parseValue E (s.length + 1) c t with
      | .ok (w, t1) =>
        simp only [hv, R.bind_ok] at h
        split at h
        · rename_i h2
          simp only [R.pure_eq, R.ok.injEq] at h
          subst h
          obtain ⟨b2, hb2, hbl2, -⟩ := skipBlanks_spec t1
          rw [h2, List.append_nil] at hb2
          subst hb2
          have key : ∃ txt j, c :: t = txt ++ t1 ∧ LVal (NumTok E) txt j ∧ w = toV E j := by
            unfold parseValue at hv
            split at hv
            · rename_i hc
              obtain ⟨body, ms, rfl, hm, rfl⟩ := (loops_sound E _).2 _ _ _ _ hv
              exact ⟨0x7B :: body, .obj ms, by rw [hc]; simp, .obj _ _ hm, by simp [toV]⟩
            · split at hv
              · rename_i hc
                obtain ⟨body, ms, rfl, hm, rfl⟩ := (loops_sound E _).1 _ _ _ _ hv
                exact ⟨0x5B :: body, .arr ms, by rw [hc]; simp, .arr _ _ hm, by simp [toV]⟩
              · match ho : parseScalar E (s.length + 1) c t with
                | .ok (some (w', t2)) =>
                  simp only [ho, R.bind_ok, R.pure_eq, R.ok.injEq, Prod.mk.injEq] at hv
                  obtain ⟨rfl, rfl⟩ := hv
                  obtain ⟨txt, j, h1, h2, h3, -⟩ := parseScalar_sound ho
                  exact ⟨txt, j, h1, h2, h3⟩
                | .ok none => rw [ho] at hv; simp at hv
                | .err e => rw [ho] at hv; simp at hv
                | .panic => rw [ho] at hv; simp at hv
                | .diverge => rw [ho] at hv; simp at hv
          obtain ⟨txt, j, h1, h2, h3⟩ := key
          exact ⟨j, ⟨b, txt, t1, by rw [hb, h1]; simp, hbl, h2, hbl2⟩, h3⟩
        · simp at h
      | .err e => rw [hv] at h; simp at h
      | .panic => rw [hv] at h; simp at h
      | .diverge => rw [hv] at h; simp at h
  · rintro ⟨j, ⟨b1, txt, b2, rfl, h1, h2, h3⟩, rfl⟩
    obtain ⟨c, t, rfl, -⟩ := lenient_complete E h2
    have := parseValue_complete E h2 ((b1 ++ c :: t ++ b2).length + 1) b2 (by simp; omega) (Follow_blank h3)
    unfold unmarshalWithIter
    rw [List.append_assoc, skipBlanks_blank h1, List.cons_append, skipBlanks_nb this.1]
    simp only
    have e : (b1 ++ c :: (t ++ b2)) = b1 ++ c :: t ++ b2 := by simp
    rw [e, this.2]
    have : skipBlanks b2 = [] := by have := skipBlanks_blank (s := []) h3; simpa [skipBlanks] using this
    simp [this]

theorem unmarshal_iff (E : Env) (s : Bytes) (v : V) : unmarshal E s = .ok v ↔ ∃ j, LText (NumTok E) s j ∧ v = toV E j := by
  rw [← unmarshalWithIter_iff]
  unfold unmarshal
  split
  · rename_i h
    have : s = [] := List.eq_nil_of_length_eq_zero h
    subst this
    simp [unmarshalWithIter, skipBlanks]
  · rfl

end JV
