import Verif.Proofs.HeapCompare
import Verif.Props.Heap
/-!
C93: whether Equal and Contains return.
-/
namespace JV
open Spec

/-- C93 as stated: with stack enough, Equal and Contains return. False: see the counterexamples below. -/
def C93_statement : Prop := ∀ (E : Env) (D : DecFn) (h : Heap) (held : List Ptr), Program E h held → ∀ p ∈ held, ∀ q ∈ held,
  (∃ n, hequal D n h p q ≠ .diverge) ∧ ∃ n, hcontains D n h p q ≠ .diverge

theorem read_of_noCycle {h : Heap} (hV : Valid h) {p : Ptr} (hp : ValidPtr h p) (hc : NoCycleBelow h p) : ∃ n v, hread n h p = .ok v := by
  cases p with
  | none => exact ⟨1, .nilp, rfl⟩
  | some a =>
    obtain ⟨n, hn⟩ := (read_iff hV (hp a rfl)).2 (hc a rfl)
    rcases hread_closed hV n (some a) (by intro b hb; cases hb; exact hp a rfl) with ⟨v, hv⟩ | hd
    · exact ⟨n, v, hv⟩
    · exact absurd hd hn

/-- If one of the two values does not contain itself, Equal and Contains return, and more stack does not change the answer. -/
theorem C93_partial (E : Env) (D : DecFn) {h : Heap} {held : List Ptr} (hP : Program E h held) {p q : Ptr} (hp : p ∈ held) (hq : q ∈ held)
    (hc : NoCycleBelow h p ∨ NoCycleBelow h q) :
    (∃ N r, r ≠ .diverge ∧ ∀ n, N ≤ n → hequal D n h p q = r) ∧ ∃ N r, r ≠ .diverge ∧ ∀ n, N ≤ n → hcontains D n h p q = r := by
  obtain ⟨hV, hh⟩ := program_valid hP
  have hr : ∃ n, (∃ v, hread n h p = .ok v) ∨ ∃ w, hread n h q = .ok w := by
    rcases hc with hc | hc
    · obtain ⟨n, v, hv⟩ := read_of_noCycle hV (hh p hp) hc
      exact ⟨n, .inl ⟨v, hv⟩⟩
    · obtain ⟨n, v, hv⟩ := read_of_noCycle hV (hh q hq) hc
      exact ⟨n, .inr ⟨v, hv⟩⟩
  obtain ⟨n, hn⟩ := hr
  exact ⟨⟨n, _, hequal_ends n hn, fun m hm => hequal_mono (hequal_ends n hn) hm⟩, n + 1, _, hcontains_ends n hn, fun m hm => hcontains_mono (hcontains_ends n hn) hm⟩

/-- If neither contains itself, the answers are those of the trees (C32, C34), however much they share with each other. -/
theorem C93_trees (E : Env) (D : DecFn) {h : Heap} {held : List Ptr} (hP : Program E h held) {p q : Ptr} (hp : p ∈ held) (hq : q ∈ held)
    (hc : NoCycleBelow h p) (hc' : NoCycleBelow h q) :
    ∃ N v w, ∀ n, N ≤ n → hread n h p = .ok v ∧ hread n h q = .ok w ∧ hequal D n h p q = .ok (equal D v w) ∧ hcontains D (n + 1) h p q = contains E D w v := by
  obtain ⟨hV, hh⟩ := program_valid hP
  obtain ⟨n, v, hv⟩ := read_of_noCycle hV (hh p hp) hc
  obtain ⟨m, w, hw⟩ := read_of_noCycle hV (hh q hq) hc'
  obtain ⟨F, hF⟩ := shows_of_read n hv
  obtain ⟨G, hG⟩ := shows_of_read m hw
  refine ⟨F.length + G.length + 1, v, w, fun k hk => ?_⟩
  have h1 := hread_ok k hF (by omega)
  have h2 := hread_ok k hG (by omega)
  exact ⟨h1, h2, hequal_tree k h1 h2, hcontains_tree E k h1 h2⟩

/-- Exactly when the answer is true: no difference can be found however far one looks, and the value does not contain itself. -/
theorem C93_true_iff (E : Env) (D : DecFn) {h : Heap} {held : List Ptr} (hP : Program E h held) {a b : Nat} (ha : some a ∈ held) :
    (∃ n, hequal D n h (some a) (some b) = .ok true) ↔ LookAlike (valOf D) h a b ∧ NoCycleBelow h (some a) := by
  obtain ⟨hV, hh⟩ := program_valid hP
  have hal := hh _ ha a rfl
  constructor
  · rintro ⟨n, hn⟩
    obtain ⟨v, hv⟩ := hequal_true_read n hn
    refine ⟨alike_of_true hn, fun a' ha' => ?_⟩
    cases ha'
    exact (read_iff hV hal).1 ⟨n, by rw [hv]; exact fun h => nomatch h⟩
  · rintro ⟨⟨Rel, hab, hR⟩, hc⟩
    obtain ⟨n, v, hv⟩ := read_of_noCycle hV (hh _ ha) hc
    exact ⟨n, (hequal_alike hR n hab).resolve_right (hequal_ends n (.inl ⟨v, hv⟩))⟩

/-- Two values that look alike and contain themselves: Equal never returns. -/
theorem C93_never (E : Env) (D : DecFn) {h : Heap} {held : List Ptr} (hP : Program E h held) {a b : Nat} (ha : some a ∈ held)
    (hl : LookAlike (valOf D) h a b) (hc : ¬ NoCycleBelow h (some a)) (n : Nat) : hequal D n h (some a) (some b) = .diverge := by
  obtain ⟨Rel, hab, hR⟩ := hl
  exact (hequal_alike hR n hab).resolve_left fun h1 => hc ((C93_true_iff E D hP ha).1 ⟨n, h1⟩).2

/-- `v.Equal(v)` for a value without nil and NotExist in it: true if it does not contain itself, and no return otherwise. -/
theorem C93_self (E : Env) (D : DecFn) {h : Heap} {held : List Ptr} (hP : Program E h held) {a : Nat} (ha : some a ∈ held) (hw : WholeBelow h a) :
    (NoCycleBelow h (some a) → ∃ N, ∀ n, N ≤ n → hequal D n h (some a) (some a) = .ok true) ∧
    (¬ NoCycleBelow h (some a) → ∀ n, hequal D n h (some a) (some a) = .diverge) := by
  obtain ⟨hV, hh⟩ := program_valid hP
  have hl := alike_self (D := D) hV (hh _ ha a rfl) hw
  refine ⟨fun hc => ?_, fun hc => C93_never E D hP ha hl hc⟩
  obtain ⟨n, hn⟩ := (C93_true_iff E D hP ha).2 ⟨hl, hc⟩
  exact ⟨n, fun m hm => by rw [hequal_mono (by rw [hn]; exact fun h => nomatch h) hm, hn]⟩

/-- Copies (Import of a `*V`, or of data with one inside; C38): one is made exactly of values that do not contain themselves. -/
theorem C93_copy (E : Env) {h : Heap} {held : List Ptr} (hP : Program E h held) {p : Ptr} (hp : p ∈ held) :
    (∃ n q, (hdeepCopy n h p).2 = .ok q) ↔ NoCycleBelow h p := by
  obtain ⟨hV, hh⟩ := program_valid hP
  constructor
  · rintro ⟨n, q, hq⟩ a rfl
    obtain ⟨⟨v, hv⟩, -⟩ := hdeepCopy_read hV n [] (some a) q (hh _ hp) (by simpa using hq)
    exact (read_iff hV (hh _ hp a rfl)).1 ⟨n, by rw [hv]; exact fun h => nomatch h⟩
  · intro hc
    obtain ⟨n, v, hv⟩ := read_of_noCycle hV (hh p hp) hc
    obtain ⟨F, hF⟩ := shows_of_read n hv
    obtain ⟨q, hq, -⟩ := hdeepCopy_fresh (F.length + 1) hF (by omega)
    exact ⟨_, q, hq⟩

/-! ### values that contain themselves -/

/-- `v := NewObject(); v.Set(v).At("a")` -/
theorem sampleLoop : Program sampleEnv [.obj 1 [⟨asc "a", 1, some 0⟩] none] [some 0, some 0] := by
  have h1 := Program.call (E := sampleEnv) _ _ (.new (.obj 0 [] none)) .start (by simp [HOp.args])
  have h2 := Program.call _ _ (.set (some 0) (some 0) [.str (asc "a")]) h1 (by decide +kernel)
  have e1 : ((HOp.set (some 0) (some 0) [.str (asc "a")]).run sampleEnv ((HOp.new (.obj 0 [] none)).run sampleEnv []).1) = ([.obj 1 [⟨asc "a", 1, some 0⟩] none], .ok (some 0)) := by decide +kernel
  rw [e1] at h2
  exact h2

theorem C93_loop (D : DecFn) (n : Nat) : hequal D n [.obj 1 [⟨asc "a", 1, some 0⟩] none] (some 0) (some 0) = .diverge ∧
    hcontains D n [.obj 1 [⟨asc "a", 1, some 0⟩] none] (some 0) (some 0) = .diverge := by
  induction n with
  | zero => exact ⟨rfl, rfl⟩
  | succ n ih =>
    simp only [BitVec.ofNat_eq_ofNat] at ih
    exact ⟨by simp [hequal, hequalM, hlookup, ih.1], by simp [hcontains, hobjectHas, hlookup, ih.2]⟩

theorem sampleLoop_reaches {x b : Nat} (hr : Reaches [.obj 1 [⟨asc "a", 1, some 0⟩] none] x b) : x = 0 → b = 0 := by
  induction hr with
  | refl a => exact id
  | step a b c cell hc hk _ ih =>
    rintro rfl
    cases hc
    exact ih (by simpa [kids] using hk)

-- both parts of C93_self have cases: a loop, and an array that holds one object twice
example : WholeBelow [.obj 1 [⟨asc "a", 1, some 0⟩] none] 0 ∧ ¬ NoCycleBelow [.obj 1 [⟨asc "a", 1, some 0⟩] none] (some 0) := by
  refine ⟨fun b c hr hc => ?_, fun h => h 0 rfl ⟨0, .refl 0, 0, _, rfl, by simp [kids], .refl 0⟩⟩
  cases sampleLoop_reaches hr rfl
  cases hc
  refine ⟨by simp, by simp [kids], fun n kvs low hk => ?_⟩
  cases hk
  simp
example : WholeBelow [.null, .arr [some 0, some 0]] 1 ∧ NoCycleBelow [.null, .arr [some 0, some 0]] (some 1) := by
  have hr : ∀ {x b : Nat}, Reaches [.null, .arr [some 0, some 0]] x b → (x = 0 → b = 0) ∧ (x = 1 → b = 0 ∨ b = 1) := by
    intro x b hr
    induction hr with
    | refl a => exact ⟨id, .inr⟩
    | step a b c cell hc hk _ ih =>
      refine ⟨?_, ?_⟩ <;> rintro rfl <;> cases hc
      · cases hk
      · exact .inl (ih.1 (by simpa [kids] using hk))
  refine ⟨fun b c h1 hc => ?_, fun a ha ⟨b, h1, k, cell, h2, h3, h4⟩ => ?_⟩
  · rcases (hr h1).2 rfl with rfl | rfl <;> cases hc <;> simp [kids]
  · cases ha
    rcases (hr h1).2 rfl with rfl | rfl <;> cases h2
    · cases h3
    · have hk : k = 0 := by simpa [kids] using h3
      cases (hr h4).1 hk

theorem C93_counterexample : ¬ C93_statement := by
  intro hs
  obtain ⟨⟨n, hn⟩, -⟩ := hs sampleEnv newFromString _ _ sampleLoop (some 0) (by simp) (some 0) (by simp)
  exact hn (C93_loop _ n).1

-- compared with a value that ends, the loop does no harm
example (D : DecFn) : hequal D 3 [.obj 1 [⟨asc "a", 1, some 0⟩] none, .obj 1 [⟨asc "a", 1, some 2⟩] none, .obj 0 [] none] (some 0) (some 1) = .ok false := by
  simp [hequal, hequalM, hlookup]

/-- Whether Equal returns can depend on the order in which Go goes through a map: `v = {"a":v,"b":true}` and `w = {"a":w,"b":false}`. -/
theorem C93_order (n : Nat) :
    hequal newFromString n [.obj 2 [⟨asc "a", 1, some 0⟩, ⟨asc "b", 2, some 2⟩] none, .obj 2 [⟨asc "a", 1, some 1⟩, ⟨asc "b", 2, some 3⟩] none, .bool true, .bool false]
      (some 0) (some 1) = .diverge ∧
    hequal newFromString (n + 2) [.obj 2 [⟨asc "b", 2, some 2⟩, ⟨asc "a", 1, some 0⟩] none, .obj 2 [⟨asc "b", 2, some 3⟩, ⟨asc "a", 1, some 1⟩] none, .bool true, .bool false]
      (some 0) (some 1) = .ok false := by
  constructor
  · induction n with
    | zero => rfl
    | succ n ih =>
      simp only [BitVec.ofNat_eq_ofNat] at ih
      simp [hequal, hequalM, hlookup, ih]
  · simp [hequal, hequalM, hlookup]

end JV
