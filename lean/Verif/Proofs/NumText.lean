import Verif.Proofs.Api
/-! Texts that consist of a single number. -/
namespace JV
open Spec

theorem unmarshal_number {E : Env} {c : UInt8} {u : Bytes} {v : V} (hc : isNumStart c = true) (hu : ∀ x ∈ u, NumChar x)
    (h : unmarshal E (c :: u) = .ok v) : NumTok E (c :: u) ∧ v = .num (c :: u) (numOf E (c :: u)) := by
  have hf := isNumStart_facts hc
  unfold unmarshal at h
  rw [if_neg (by simp)] at h
  unfold unmarshalWithIter at h
  rw [skipBlanks_nb hf.1] at h
  simp only [parseValue, if_neg hf.2.2.2.2.2.1, if_neg hf.2.2.2.2.2.2.1, parseScalar, if_pos hc] at h
  match hp : parseNumber E (c :: u) with
  | .ok (n, text, rest) =>
    obtain ⟨h1, h2, h3, h4⟩ := parseNumber_split hc hp
    have hr : rest = [] := by
      cases rest with
      | nil => rfl
      | cons d rest =>
        exfalso
        refine h2 d rest rfl ?_
        have hm : d ∈ c :: u := by rw [h1]; simp
        rcases List.mem_cons.1 hm with rfl | hm
        · exact absurd h2 (by
            intro h2
            cases text with
            | nil => obtain ⟨⟨x, y, hxy, -⟩, -⟩ := h3; simp at hxy
            | cons x text =>
              simp at h1
              exact h2 d rest rfl (hu d (by rw [h1.2]; simp)))
        · exact hu d hm
    subst hr
    rw [List.append_nil] at h1
    subst h1
    simp only [hp, R.bind_ok, R.pure_eq] at h
    simp [skipBlanks] at h
    exact ⟨h3, by rw [← h, h4]⟩
  | .err e => simp [hp] at h
  | .panic => simp [hp] at h
  | .diverge => simp [hp] at h

theorem unmarshal_numTok {E : Env} {t : Bytes} (h : NumTok E t) : unmarshal E t = .ok (.num t (numOf E t)) :=
  (unmarshal_iff E t _).2 ⟨.num t, ⟨[], t, [], by simp, Blank_nil, .num t h, Blank_nil⟩, rfl⟩

theorem unmarshal_intText {E : Env} {neg : Bool} {ds : Bytes} {v : V} (hd : Digits ds) (hne : ds ≠ []) (h : unmarshal E (sign neg ++ ds) = .ok v) :
    IntTok neg ds ∧ v = .num (sign neg ++ ds) (intNum E neg (decVal ds)) := by
  obtain ⟨c, u, hcu, hc, -⟩ := sign_start neg ds [] hd (by simp [hne])
  rw [List.append_nil] at hcu
  have hu : ∀ x ∈ u, NumChar x := by
    intro x hx
    cases neg
    · simp [sign] at hcu; rw [hcu] at hd; exact .inl (hd x (by simp [hx]))
    · simp [sign] at hcu; rw [← hcu.2] at hx; exact .inl (hd x hx)
  rw [hcu] at h
  obtain ⟨h1, h2⟩ := unmarshal_number hc hu h
  rw [← hcu] at h1 h2
  have := intTok_iff (E := E) neg ds hd
  have h3 := this.1.1 h1
  exact ⟨h3, by rw [h2, this.2 h3]⟩

end JV
