import Verif.Spec.Typed
import Verif.Proofs.History
import Verif.Proofs.NumText
/-! Typed access: strings read as numbers. -/
namespace JV
open Spec

theorem numStep_fine (pos : Nat) (st : NumSt) (b : UInt8) : (∃ o, numStep pos st b = .ok o) ∨ ∃ e, numStep pos st b = .err e := by
  unfold numStep
  repeat' split
  all_goals first | exact .inl ⟨_, rfl⟩ | exact .inr ⟨_, rfl⟩

theorem numLoop_fine (acc s : Bytes) (st : NumSt) : (∃ o, numLoop acc st s = .ok o) ∨ ∃ e, numLoop acc st s = .err e := by
  induction s generalizing acc st with
  | nil => exact .inl ⟨_, rfl⟩
  | cons b t ih =>
    simp only [numLoop]
    rcases numStep_fine acc.length st b with ⟨o, h⟩ | ⟨e, h⟩
    · rw [h]
      cases o with
      | none => exact .inl ⟨_, rfl⟩
      | some st => simp only [R.bind_ok]; exact ih _ _
    · rw [h]; exact .inr ⟨e, rfl⟩

theorem finishNumber_fine (E : Env) (st : NumSt) (text : Bytes) (c : UInt8) : (∃ o, finishNumber E st text c = .ok o) ∨ ∃ e, finishNumber E st text c = .err e := by
  unfold finishNumber floatResult intResult negativeIntResult positiveIntResult
  repeat' split
  all_goals first | exact .inl ⟨_, rfl⟩ | exact .inr ⟨_, rfl⟩

/-- only the empty text makes the number parser panic -/
theorem parseNumberV_fine (E : Env) (s : Bytes) (hs : s ≠ []) : (∃ w, parseNumberV E s = .ok w) ∨ ∃ e, parseNumberV E s = .err e := by
  match s, hs with
  | c :: t, _ =>
    unfold parseNumberV
    rw [parseNumber_eq]
    rcases numLoop_fine [] (c :: t) {} with ⟨⟨st, text, rest⟩, h⟩ | ⟨e, h⟩
    · rw [h]
      simp only [R.bind_ok]
      rcases finishNumber_fine E st text c with ⟨n, h⟩ | ⟨e, h⟩
      · rw [h]
        simp only [R.bind_ok, R.pure_eq]
        split
        · exact .inr ⟨_, rfl⟩
        · exact .inl ⟨_, rfl⟩
      · rw [h]; exact .inr ⟨e, rfl⟩
    · rw [h]; exact .inr ⟨e, rfl⟩

theorem parseNumberV_empty (E : Env) : parseNumberV E [] = .panic := rfl

theorem goFloat_not_e {t : Bytes} {c : UInt8} (hc : c = 0x65 ∨ c = 0x45) : ¬ GoFloat (c :: t) := by
  rintro ⟨sg, ip, fp, ds, ep, ht, hsg, hip, hfp, hep, hne⟩
  have hsg' : sg = [] := by
    rcases hsg with h | h | h
    · exact h
    · subst h; simp at ht; rcases hc with rfl | rfl <;> simp at ht
    · subst h; simp at ht; rcases hc with rfl | rfl <;> simp at ht
  subst hsg'
  match ip with
  | d :: ip =>
    simp at ht
    have hd := hip d (by simp)
    rw [← ht.1] at hd
    rcases hc with rfl | rfl <;> simp [Digit] at hd
  | [] =>
    rcases hne with h | ⟨h, -⟩
    · exact h rfl
    · rcases hfp with h' | ⟨h', -⟩
      · exact h h'
      · subst h'
        simp at ht
        rcases hc with rfl | rfl <;> simp at ht

theorem numStep_keep_floated {pos : Nat} {st st' : NumSt} {b : UInt8} (h : numStep pos st b = .ok (some st')) (hf : st.floated = true) : st'.floated = true := by
  unfold numStep at h
  revert h
  repeat' split
  all_goals (intro h; first | (cases h; done) | (cases h; first | exact hf | rfl))

theorem numLoop_keep_floated {acc s : Bytes} {st st' : NumSt} {x y : Bytes} (h : numLoop acc st s = .ok (st', x, y)) (hf : st.floated = true) : st'.floated = true := by
  induction s generalizing acc st with
  | nil => simp only [numLoop, R.ok.injEq, Prod.mk.injEq] at h; rw [← h.1]; exact hf
  | cons b t ih =>
    simp only [numLoop] at h
    match hn : numStep acc.length st b with
    | .ok none => simp only [hn, R.bind_ok, R.pure_eq, R.ok.injEq, Prod.mk.injEq] at h; rw [← h.1]; exact hf
    | .ok (some st1) => simp only [hn, R.bind_ok] at h; exact ih h (numStep_keep_floated hn hf)
    | .err e => simp [hn] at h
    | .panic => simp [hn] at h
    | .diverge => simp [hn] at h

theorem numLoop_text {acc s text rest : Bytes} {st st' : NumSt} (h : numLoop acc st s = .ok (st', text, rest)) : acc ++ s = text ++ rest := (numLoop_length h).2

/-- exactly the texts of number tokens are read as numbers -/
theorem parseNumberV_iff {E : Env} (hpf : ∀ text, (∀ c ∈ text, NumChar c) → E.parseFloat text ≠ none → GoFloat text) (s : Bytes) (w : V) :
    parseNumberV E s = .ok w ↔ NumTok E s ∧ w = .num s (numOf E s) := by
  constructor
  · intro h
    match s, h with
    | [], h => rw [parseNumberV_empty] at h; cases h
    | c :: t, h =>
      unfold parseNumberV at h
      cases hp : parseNumber E (c :: t) with
      | ok r =>
        obtain ⟨n, text, rest⟩ := r
        rw [hp] at h
        simp only [R.bind_ok] at h
        split at h
        · cases h
        · rename_i hr
          have hr : rest = [] := by simpa using hr
          subst hr
          simp only [R.pure_eq, R.ok.injEq] at h
          subst h
          by_cases hc : isNumStart c = true
          · obtain ⟨h1, h2, h3, h4⟩ := parseNumber_split hc hp
            simp at h1
            subst h1
            exact ⟨h3, by rw [h4]⟩
          · exfalso
            rw [parseNumber_eq] at hp
            cases hn : numLoop [] {} (c :: t) with
            | err e => rw [hn] at hp; simp at hp
            | panic => rw [hn] at hp; simp at hp
            | diverge => rw [hn] at hp; simp at hp
            | ok r =>
              obtain ⟨st, text', rest'⟩ := r
              rw [hn] at hp
              simp only [R.bind_ok] at hp
              have hx := numLoop_text hn
              have hn0 := hn
              simp only [List.nil_append] at hx
              simp only [numLoop] at hn
              have h0 : c ≠ 0x30 ∧ isDigit19 c = false ∧ c ≠ 0x2D := by
                unfold isNumStart isDigit at hc
                unfold isDigit19
                simp only [Bool.or_eq_true, Bool.and_eq_true, decide_eq_true_eq, beq_iff_eq, not_or] at hc
                refine ⟨by rintro rfl; exact absurd hc.1 (by decide), ?_, hc.2⟩
                apply Bool.eq_false_iff.2
                intro h
                simp only [Bool.and_eq_true, decide_eq_true_eq] at h
                refine hc.1 ⟨?_, h.2⟩
                have := h.1
                rw [UInt8.le_iff_toNat_le] at this ⊢
                exact Nat.le_trans (by decide) this
              by_cases he : c = 0x65 ∨ c = 0x45
              · have hs : numStep ([] : Bytes).length {} c = .ok (some { exponentGot := true, floated := true }) := by
                  unfold numStep; rw [if_neg h0.1, if_neg (by simp [h0.2.1]), if_pos he]; rfl
                simp only [hs, R.bind_ok] at hn
                have hf := numLoop_keep_floated hn rfl
                rw [finishNumber_float hf] at hp
                split at hp
                · simp at hp
                · unfold floatResult at hp
                  cases hpfl : E.parseFloat text' with
                  | none => rw [hpfl] at hp; simp at hp
                  | some f =>
                    rw [hpfl] at hp
                    simp only [R.bind_ok, R.pure_eq, R.ok.injEq, Prod.mk.injEq] at hp
                    rw [hp.2.2] at hx hn0
                    have hch := numLoop_chars hn0
                    simp at hx
                    rw [← hx] at hpfl
                    exact goFloat_not_e he (hpf _ hch (by rw [hpfl]; simp))
              · have hs : numStep ([] : Bytes).length {} c = .ok none ∨ ∃ e, numStep ([] : Bytes).length {} c = .err e := by
                  unfold numStep; rw [if_neg h0.1, if_neg (by simp [h0.2.1]), if_neg he]
                  split
                  · exact .inr ⟨_, rfl⟩
                  · rw [if_neg h0.2.2]
                    split
                    · rw [if_pos (.inl rfl)]; exact .inr ⟨_, rfl⟩
                    · exact .inl rfl
                rcases hs with hs | ⟨e, hs⟩
                · simp only [hs, R.bind_ok, R.pure_eq, R.ok.injEq, Prod.mk.injEq] at hn
                  obtain ⟨-, -, rfl⟩ := hn
                  cases hfn : finishNumber E st text' c with
                  | ok m => rw [hfn] at hp; simp at hp
                  | err e => rw [hfn] at hp; simp at hp
                  | panic => rw [hfn] at hp; simp at hp
                  | diverge => rw [hfn] at hp; simp at hp
                · rw [hs] at hn; simp at hn
      | err e => rw [hp] at h; simp at h
      | panic => rw [hp] at h; simp at h
      | diverge => rw [hp] at h; simp at h
  · rintro ⟨⟨⟨c, u, rfl, hc⟩, m, hp⟩, rfl⟩
    unfold parseNumberV
    rw [hp]
    simp [numOf, hp]

end JV

namespace JV
open Spec

theorem locate_cases_cl (E : Env) (cl : Bool) (v : V) (p : Param) :
    (∃ s, (locate E cl v p).2 = .ok s) ∨ (∃ e, (locate E cl v p).2 = .err e) ∨ ((locate E cl v p).2 = .panic ∧ v = .nilp) := by
  match v with
  | .arr xs =>
    rw [locate_arr]
    cases hz : intOf p with
    | none => exact .inr (.inl ⟨_, rfl⟩)
    | some z =>
      simp only
      cases index xs.length z with
      | none => exact .inr (.inl ⟨_, rfl⟩)
      | some i => exact .inl ⟨_, rfl⟩
  | .obj n kvs low =>
    cases p with
    | str k =>
      rw [locate_str]
      cases (findKey E cl kvs low k).2 with
      | none => exact .inr (.inl ⟨_, rfl⟩)
      | some i => exact .inl ⟨_, rfl⟩
    | _ => exact .inr (.inl ⟨_, rfl⟩)
  | .nilp => exact .inr (.inr ⟨rfl, rfl⟩)
  | .notExist => exact .inr (.inl ⟨_, rfl⟩)
  | .str _ => exact .inr (.inl ⟨_, rfl⟩)
  | .num _ _ => exact .inr (.inl ⟨_, rfl⟩)
  | .bool _ => exact .inr (.inl ⟨_, rfl⟩)
  | .null => exact .inr (.inl ⟨_, rfl⟩)

theorem locate_rcases_cl (E : Env) (cl : Bool) (v : V) (p q : Param) : RCases v [q] (do let s ← (locate E cl v p).2; pure [s]) := by
  rcases locate_cases_cl E cl v p with ⟨s, h⟩ | ⟨e, h⟩ | ⟨h, rfl⟩
  · rw [h]; exact .inl ⟨_, rfl⟩
  · rw [h]; exact .inr (.inl ⟨_, rfl⟩)
  · rw [h]; exact .inr (.inr ⟨rfl, .inr ⟨[], rfl⟩⟩)

mutual
theorem resolve1_cases_cl (E : Env) (cl : Bool) : ∀ (p : Param) (v : V), RCases v [p] (resolve1 E cl v p).2
  | .slice qs, v => by
    match qs with
    | [] => rw [resolve1_empty]; exact locate_rcases_cl E cl v .nil _
    | q :: qs =>
      rw [resolve1_slice]
      rcases resolve_cases_cl E cl (q :: qs) v with h | h | ⟨h, h'⟩
      · exact .inl h
      · exact .inr (.inl h)
      · refine .inr (.inr ⟨h, .inr ?_⟩)
        rcases h' with h' | h'
        · cases h'
        · exact h'
  | .nil, v => locate_rcases_cl E cl v .nil _
  | .int i, v => locate_rcases_cl E cl v (.int i) _
  | .uint i, v => locate_rcases_cl E cl v (.uint i) _
  | .str k, v => locate_rcases_cl E cl v (.str k) _
  | .other, v => locate_rcases_cl E cl v .other _
termination_by structural p => p
theorem resolve_cases_cl (E : Env) (cl : Bool) : ∀ (ps : List Param) (v : V), RCases v ps (resolve E cl v ps).2
  | [], v => .inr (.inr ⟨rfl, .inl rfl⟩)
  | p :: rest, v => by
    have h1 := resolve1_cases_cl E cl p v
    have h2 := resolve_cases_cl E cl rest
    match rest with
    | [] => rw [resolve_one]; exact h1
    | q :: qs =>
      by_cases hp : p.isSlice = true
      · rw [resolve_cons_slice _ _ _ _ _ _ hp]; exact .inr (.inl ⟨_, rfl⟩)
      · rw [resolve_cons _ _ _ _ _ _ (by simpa using hp)]
        rcases locate_cases_cl E cl v p with ⟨s, h⟩ | ⟨e, h⟩ | ⟨h, rfl⟩
        · obtain ⟨c, hc⟩ := locate_child E cl v p s h
          rw [h]
          simp only [hc]
          rcases h2 c with ⟨l, h⟩ | ⟨e, h⟩ | ⟨h, h'⟩
          · rw [h]; exact .inl ⟨_, rfl⟩
          · rw [h]; exact .inr (.inl ⟨_, rfl⟩)
          · rw [h]
            refine .inr (.inr ⟨rfl, .inr ?_⟩)
            rcases h' with h' | ⟨m, h'⟩
            · cases h'
            · exact ⟨s :: m, by simp [V.at, hc, h']⟩
        · rw [h]; exact .inr (.inl ⟨_, rfl⟩)
        · rw [h]; exact .inr (.inr ⟨rfl, .inr ⟨[], rfl⟩⟩)
termination_by structural ps => ps
end

/-- Get, caseless or not, never panics on a tree without nil pointers, and finds a node that shows what the node of the given tree shows. -/
theorem getC_cases (E : Env) (cl : Bool) (v : V) (ps : List Param) (hne : ps ≠ []) (hn : NoNil v) :
    (∃ l c d, (getC E cl v ps).2 = .ok c ∧ v.at l = some d ∧ info c = info d ∧ c ≠ .nilp) ∨ ∃ e, (getC E cl v ps).2 = .err e := by
  rcases resolve_cases_cl E cl ps v with ⟨l, h⟩ | ⟨e, h⟩ | ⟨h, h'⟩
  · left
    obtain ⟨c, hc⟩ := resolve_at E cl ps v l h
    have hs := sameObs_resolve E cl ps v l
    rw [hc] at hs
    cases hd : v.at l with
    | none => rw [hd] at hs; cases hs
    | some d =>
      rw [hd] at hs
      simp only [Option.map_some, Option.some.injEq] at hs
      refine ⟨l, c, d, by unfold getC; rw [h]; simp [fetch, hc], hd, hs.symm, ?_⟩
      rintro rfl
      cases d <;> simp [info] at hs
      exact hn l hd
  · right; exact ⟨e, by unfold getC; rw [h]; rfl⟩
  · rcases h' with h' | ⟨m, h'⟩
    · exact absurd h' hne
    · exact absurd h' (hn m)

theorem convNum_total {α : Type} (E : Env) (f : V → R α) (pr : Num → α) (hf : ∀ src n, f (.num src n) = .ok (pr n)) (c : V) (hc : c ≠ .nilp)
    (hs : ∀ s, c = .str s → E.trimSpace s ≠ []) : ∃ x e, convNum E f c = .ok (x, e) := by
  unfold convNum numberAndErr
  cases c with
  | nilp => exact absurd rfl hc
  | num src n => exact ⟨_, _, by simp only [R.bind_ok, hf]; rfl⟩
  | str s =>
    rcases parseNumberV_fine E _ (hs s rfl) with ⟨w, h⟩ | ⟨e, h⟩
    · have hw : ∃ t n, w = .num t n := by
        unfold parseNumberV at h
        cases hp : parseNumber E (E.trimSpace s) with
        | ok r =>
          rw [hp] at h
          simp only [R.bind_ok] at h
          split at h
          · cases h
          · simp at h; exact ⟨_, _, h.symm⟩
        | err e => rw [hp] at h; cases h
        | panic => simp only [hp] at h; cases h
        | diverge => simp only [hp] at h; cases h
      obtain ⟨t, n, rfl⟩ := hw
      exact ⟨_, _, by simp only [h, R.bind_ok, hf]; rfl⟩
    · exact ⟨_, _, by simp only [h, R.bind_ok, newInt64, hf]; rfl⟩
  | _ => exact ⟨_, _, by simp only [R.bind_ok, newInt64, hf]; rfl⟩

theorem typedGet_total {α : Type} (E : Env) (cl : Bool) (zero : α) (conv : V → Ret α) (v : V) (ps : List Param) (hn : NoNil v) (hne : ps ≠ [])
    (hb : NoBlankStr E v) (hc : ∀ c, c ≠ .nilp → (∀ s, c = .str s → E.trimSpace s ≠ []) → ∃ x e, conv c = .ok (x, e)) :
    ∃ x e, typedGet E cl zero conv v ps = .ok (x, e) := by
  unfold typedGet
  rcases getC_cases E cl v ps hne hn with ⟨l, c, d, h1, h2, h3, h4⟩ | ⟨e, h⟩
  · rw [h1]
    refine hc c h4 (fun s hs => ?_)
    subst hs
    refine hb l s ?_
    rw [h2]
    cases d <;> simp [info] at h3
    rw [h3]
  · rw [h]; exact ⟨_, _, rfl⟩


theorem numTok_acc {E : Env} (hpf : ∀ text, (∀ c ∈ text, NumChar c) → E.parseFloat text ≠ none → GoFloat text) (t : Bytes) : NumTok E t ↔ AccNum E t := numTok_iff hpf t

theorem convNum_result {α : Type} {E : Env} (hpf : ∀ text, (∀ c ∈ text, NumChar c) → E.parseFloat text ≠ none → GoFloat text) (f : V → R α) (pr : Num → α) (zero : α)
    (hf : ∀ src n, f (.num src n) = .ok (pr n)) (c : V) (r : α × Option Err) (h : convNum E f c = .ok r) : NumResult E pr zero (.ok c) r := by
  unfold convNum numberAndErr at h
  cases c with
  | nilp => cases h
  | num src n => simp only [R.bind_ok, hf, R.pure_eq, R.ok.injEq] at h; subst h; exact .num _ _
  | str s =>
    cases hp : parseNumberV E (E.trimSpace s) with
    | ok w =>
      obtain ⟨h1, rfl⟩ := (parseNumberV_iff hpf _ _).1 hp
      simp only [hp, R.bind_ok, hf, R.pure_eq, R.ok.injEq] at h
      subst h
      exact .text s _ ((numTok_acc hpf _).1 h1) (unmarshal_numTok h1)
    | err e =>
      simp only [hp, R.bind_ok, newInt64, hf, R.pure_eq, R.ok.injEq] at h
      subst h
      refine .badText s (fun ha => ?_)
      have := (parseNumberV_iff hpf (E.trimSpace s) _).2 ⟨(numTok_acc hpf _).2 ha, rfl⟩
      rw [hp] at this; cases this
    | panic => simp only [hp] at h; cases h
    | diverge => simp only [hp] at h; cases h
  | _ => simp only [R.bind_ok, newInt64, hf, R.pure_eq, R.ok.injEq] at h; subst h; exact .other _ id

theorem numRec_value {E : Env} (hpf : ∀ text, (∀ c ∈ text, NumChar c) → E.parseFloat text ≠ none → GoFloat text) (v : V) (hv : v ≠ .nilp)
    (hb : ∀ s, v = .str s → s ≠ [] → E.trimSpace s ≠ []) : ∃ n, NumValue E v n ∧ numRec E v = .ok n := by
  cases v with
  | nilp => exact absurd rfl hv
  | num src n => exact ⟨n, .num _ _, rfl⟩
  | str s =>
    by_cases hs : s = []
    · subst hs
      exact ⟨zeroNum E, .badText _ (.inl rfl), rfl⟩
    · rcases parseNumberV_fine E _ (hb s rfl hs) with ⟨w, h⟩ | ⟨e, h⟩
      · obtain ⟨h1, rfl⟩ := (parseNumberV_iff hpf _ _).1 h
        refine ⟨_, .text s _ hs ((numTok_acc hpf _).1 h1) (unmarshal_numTok h1), ?_⟩
        simp [numRec, numberFromNotNumber, hs, h]
      · refine ⟨zeroNum E, .badText _ (.inr fun ha => ?_), ?_⟩
        · have := (parseNumberV_iff hpf (E.trimSpace s) _).2 ⟨(numTok_acc hpf _).2 ha, rfl⟩
          rw [h] at this; cases this
        · simp [numRec, numberFromNotNumber, hs, h]; rfl
  | _ => exact ⟨zeroNum E, .other _ id, rfl⟩


theorem jint_chars {neg : Bool} {ip t : Bytes} (h : JInt neg ip t) : ∀ c ∈ t, c ≠ 0x2E ∧ c ≠ 0x65 ∧ c ≠ 0x45 := by
  obtain ⟨hip, rfl⟩ := h
  intro c hc
  rcases List.mem_append.1 hc with hc | hc
  · cases neg <;> simp [sign] at hc
    subst hc; decide
  · have := (intPart_digits hip).1 c hc
    unfold Digit at this
    refine ⟨?_, ?_, ?_⟩ <;> (rintro rfl; revert this; decide)

theorem dotE {ip fp ep : Bytes} {neg : Bool} (hfp : fp = [] ∨ FracPart fp) (hep : ep = [] ∨ ExpPart ep) (hne : fp ++ ep ≠ []) :
    ∃ c ∈ sign neg ++ ip ++ fp ++ ep, c = 0x2E ∨ c = 0x65 ∨ c = 0x45 := by
  rcases hfp with rfl | ⟨ds, rfl, -⟩
  · rcases hep with rfl | ⟨e, sg, ds, rfl, he, -⟩
    · simp at hne
    · exact ⟨e, by simp, .inr he⟩
  · exact ⟨0x2E, by simp, .inl rfl⟩

theorem jint_not_jfloat (t : Bytes) (h : ∃ neg ip, JInt neg ip t) : ¬ ∃ neg ip, JFloat neg ip t := by
  obtain ⟨neg, ip, h⟩ := h
  rintro ⟨neg', ip', fp, ep, hip, hfp, hep, hne, rfl⟩
  obtain ⟨c, hc, hx⟩ := dotE (neg := neg') (ip := ip') hfp hep hne
  obtain ⟨h1, h2, h3⟩ := jint_chars h c hc
  rcases hx with h | h | h
  · exact h1 h
  · exact h2 h
  · exact h3 h

theorem unmarshal_num_text {E : Env} {t : Bytes} {n : Num} (h : unmarshal E t = .ok (.num t n)) : NumTok E t ∧ n = numOf E t := by
  obtain ⟨j, hj, hv⟩ := (unmarshal_iff E t _).1 h
  cases j with
  | num t' =>
    simp only [toV, V.num.injEq] at hv
    obtain ⟨rfl, rfl⟩ := hv
    obtain ⟨a, b, c, -, -, hb, -⟩ := hj
    cases hb with
    | num _ h => exact ⟨h, rfl⟩
  | obj ms => exact absurd hv (by simp [toV])
  | _ => simp [toV] at hv

theorem jnum_parsed {E : Env} (hpf : ∀ text, (∀ c ∈ text, NumChar c) → E.parseFloat text ≠ none → GoFloat text) {t : Bytes} {n : Num} (h : unmarshal E t = .ok (.num t n)) :
    ((∃ neg ip, JInt neg ip t) → n.floated = false) ∧ ((∃ neg ip, JFloat neg ip t) → n.floated = true) := by
  obtain ⟨h1, h2⟩ := unmarshal_num_text h
  constructor
  · rintro ⟨neg, ip, hip, rfl⟩
    have hd := intPart_digits hip
    obtain ⟨-, h3⟩ := unmarshal_intText hd.1 hd.2.1 h
    simp only [V.num.injEq] at h3
    rw [h3.2]; exact (intNum_denotes E neg (decVal ip)).2.1
  · rintro ⟨neg, ip, fp, ep, hip, hfp, hep, hne, ht⟩
    rcases (numTok_iff hpf t).1 h1 with ⟨neg', ds, rfl, hi⟩ | ⟨neg', ip', fp', ep', hf, hp⟩
    · exfalso
      obtain ⟨c, hc, hx⟩ := dotE (neg := neg) (ip := ip) hfp hep hne
      rw [← ht] at hc
      rcases List.mem_append.1 hc with hc | hc
      · cases neg' <;> simp [sign] at hc
        subst hc; revert hx; decide
      · have := hi.1 c hc
        unfold Digit at this
        rcases hx with rfl | rfl | rfl <;> revert this <;> decide
    · cases hpf : E.parseFloat t with
      | none => exact absurd hpf hp
      | some f => rw [h2, (floatTok_ok hf hpf).2]; rfl

theorem jint_parsed {E : Env} {t : Bytes} {n : Num} {neg : Bool} {ip : Bytes} (hj : JInt neg ip t) (h : unmarshal E t = .ok (.num t n))
    (hr : -2 ^ 63 ≤ intVal neg ip ∧ intVal neg ip < 2 ^ 64) :
    n.negative = neg ∧ (intVal neg ip < 2 ^ 63 → n.i64.toInt = intVal neg ip) ∧ (0 ≤ intVal neg ip → intVal neg ip < 2 ^ 64 → (n.u64.toNat : Int) = intVal neg ip) := by
  obtain ⟨-, rfl⟩ := unmarshal_num_text h
  rw [(jint_num (E := E) hj hr.1 hr.2).2]
  have := intNum_denotes E neg (decVal ip)
  exact ⟨this.1, fun h => this.2.2.1 hr.1 h, this.2.2.2⟩

end JV
