import Verif.Spec.Channel
import Verif.Proofs.SetSeq
/-! The invariant of the channel iterators. -/
namespace JV
open Spec

/-- what is known of the channel at any time -/
theorem runs_inv {α : Type} {l : List α} {cap n : Nat} {s : Chan α} (hcap : l.length ≤ cap) (h : Runs (startChan cap l) n s) :
    s.got ++ s.buf ++ s.todo = l ∧ s.cap = cap ∧ (s.closed = true → s.todo = []) ∧ (s.ended = true → s.closed = true ∧ s.buf = []) ∧
    n + s.todo.length ≤ l.length + (if s.closed then 1 else 0) := by
  induction h with
  | start => simp [startChan]
  | send h hs ih =>
    obtain ⟨i1, i2, i3, i4, i5⟩ := ih
    cases hs with
    | send x r ht hc hb =>
      refine ⟨by simp [← i1, ht], i2, by simp [hc], by simpa [hc] using i4, ?_⟩
      simp only [hc, ht, List.length_cons] at i5 ⊢; simp at i5 ⊢; omega
    | close ht hc =>
      refine ⟨i1, i2, fun _ => ht, fun he => ?_, ?_⟩
      · have := (i4 he).1; rw [hc] at this; cases this
      · simp only [hc, ht] at i5 ⊢; simp at i5 ⊢; omega
  | recv h hs ih =>
    obtain ⟨i1, i2, i3, i4, i5⟩ := ih
    cases hs with
    | recv x r hb he => exact ⟨by simp [← i1, hb], i2, i3, fun h => by simp [he] at h, i5⟩
    | direct x r ht hc hb he =>
      refine ⟨by simp [← i1, ht, hb], i2, by simp [hc], fun h => by simp [he] at h, ?_⟩
      simp only [hc, ht, List.length_cons] at i5 ⊢; simp at i5 ⊢; omega
    | finish hb hc he => exact ⟨i1, i2, i3, fun _ => ⟨hc, hb⟩, i5⟩

theorem delivers {α : Type} {l : List α} {cap : Nat} (hcap : l.length ≤ cap) : Delivers (startChan cap l) l := by
  intro n s h
  obtain ⟨i1, i2, i3, i4, i5⟩ := runs_inv hcap h
  have hsend : s.closed = false → ∃ t, Sends s t := by
    intro hc
    cases ht : s.todo with
    | nil => exact ⟨_, .close s ht hc⟩
    | cons x r =>
      refine ⟨_, .send s x r ht hc ?_⟩
      have := congrArg List.length i1
      simp [ht] at this
      omega
  refine ⟨⟨s.buf ++ s.todo, by rw [← List.append_assoc]; exact i1⟩, fun he => ?_, hsend, ?_, fun he => ?_⟩
  · obtain ⟨h1, h2⟩ := i4 he
    have := i3 h1
    rw [h2, this] at i1
    simpa using i1
  · split at i5 <;> omega
  · cases hc : s.closed with
    | false => exact .inl (hsend hc)
    | true =>
      cases hb : s.buf with
      | nil => exact .inr ⟨_, .finish s hb hc he⟩
      | cons x r => exact .inr ⟨_, .recv s x r hb he⟩

theorem indexed_length (i : Nat) (xs : List V) : (indexed i xs).length = xs.length := by
  induction xs generalizing i with
  | nil => rfl
  | cons x xs ih => simp [indexed, ih]

end JV
