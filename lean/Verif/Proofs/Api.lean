import Verif.Model.Api
import Verif.Proofs.Denote
import Verif.Proofs.LeftBuf
/-! The public parsing functions in terms of the functional parser. -/
namespace JV
open Spec

theorem copyBytes_self (b : Bytes) : copyBytes (List.replicate b.length 0) b = b := by
  simp [copyBytes]

theorem goUnmarshal_ok {E : Env} {b b' : Bytes} {v : V} : goUnmarshal E b = .ok (b', v, none) ↔ (b' = b ∧ unmarshal E b = .ok v) := by
  unfold goUnmarshal unmarshal
  split
  · simp
  · simp only [copyBytes_self]
    have h := unmarshalWithIterB_rel E b
    match hu : unmarshalWithIter E b, h with
    | .ok w, ⟨it, pv, h1, _, _, h4⟩ =>
      simp only [h1, finish, h4, R.ok.injEq, Prod.mk.injEq, and_true]
      exact ⟨fun ⟨a, b⟩ => ⟨a.symm, b⟩, fun ⟨a, b⟩ => ⟨a.symm, b⟩⟩
    | .err e, h => simp only at h; simp [h, finish]

theorem goUnmarshal_cases (E : Env) (b : Bytes) : (∃ v, unmarshal E b = .ok v ∧ goUnmarshal E b = .ok (b, v, none)) ∨
    (∃ e, unmarshal E b = .err e ∧ goUnmarshal E b = .ok (b, if b = [] then .nilp else .notExist, some e)) := by
  unfold goUnmarshal unmarshal
  by_cases hb : b.length = 0
  · rw [if_pos hb, if_pos hb]; right; simp at hb; exact ⟨.nilParameter, by simp [hb]⟩
  · have hb' : b ≠ [] := by simpa using hb
    rw [if_neg hb, if_neg hb, if_neg hb']
    simp only [copyBytes_self]
    have h := unmarshalWithIterB_rel E b
    match hu : unmarshalWithIter E b, h with
    | .ok w, ⟨it, pv, h1, _, _, h4⟩ => left; exact ⟨w, rfl, by simp [h1, finish, h4]⟩
    | .err e, h => right; simp only at h; exact ⟨e, rfl, by simp [h, finish]⟩

theorem goUnmarshalNoCopy_cases (E : Env) (b : Bytes) :
    (∃ v it, unmarshal E b = .ok v ∧ goUnmarshalNoCopy E b = .ok (it, v, none) ∧ Decoded b it) ∨
    (∃ e it, unmarshal E b = .err e ∧ goUnmarshalNoCopy E b = .ok (it, .notExist, some e) ∧ PartlyDecoded b it) := by
  unfold goUnmarshalNoCopy unmarshal
  by_cases hb : b.length = 0
  · rw [if_pos hb, if_pos hb]; right; exact ⟨.nilParameter, _, rfl, rfl, torn_refl b⟩
  · rw [if_neg hb, if_neg hb]
    have h := unmarshalWithIterB_rel E b
    match hu : unmarshalWithIter E b, h with
    | .ok w, ⟨it, pv, h1, h2, _, h4⟩ => left; exact ⟨w, it, rfl, by simp [h1, finish, h4], h2⟩
    | .err e, h => right; simp only at h; exact ⟨e, leftB E b, rfl, by simp [h, finish], leftB_torn E b⟩

theorem toV_exists (E : Env) (j : J) : toV E j ≠ .nilp ∧ toV E j ≠ .notExist := by
  cases j <;> simp [toV]

theorem unmarshal_exists {E : Env} {s : Bytes} {v : V} (h : unmarshal E s = .ok v) : v ≠ .nilp ∧ v ≠ .notExist := by
  obtain ⟨j, -, rfl⟩ := (unmarshal_iff E s v).1 h
  exact toV_exists E j

end JV
