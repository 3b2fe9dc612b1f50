import Verif.Proofs.MessageDoc
import Verif.Proofs.Decimal
import Verif.Props.Errors
/-!
C80: the texts of the errors of Unmarshal and the positions in them. `unmarshalM` (Model/Message) is Unmarshal with its messages, `TextSays`,
`fault` and `viable` (Spec/Message) say what they mean.
-/
namespace JV
open Spec

theorem unmarshalM_ok_iff {E : Env} {s : Bytes} {v : V} : unmarshalM E s = .ok v ↔ unmarshal E s = .ok v := by
  have h := unmarshalM_forget E s
  cases hm : unmarshalM E s with
  | ok w => rw [hm] at h; rw [← h]; constructor <;> (intro h; cases h; rfl)
  | err m => rw [hm] at h; rw [← h]; constructor <;> (intro h; cases h)
  | panic => rw [hm] at h; rw [← h]; constructor <;> (intro h; cases h)
  | diverge => rw [hm] at h; rw [← h]; constructor <;> (intro h; cases h)

theorem unmarshalM_err_iff {E : Env} {s : Bytes} {e : Err} : (∃ m, unmarshalM E s = .err m ∧ m.err = e) ↔ unmarshal E s = .err e := by
  have h := unmarshalM_forget E s
  cases hm : unmarshalM E s with
  | ok w => rw [hm] at h; rw [← h]; constructor <;> (intro h; first | (obtain ⟨m, h, -⟩ := h; cases h) | cases h)
  | err m =>
    rw [hm] at h; rw [← h]
    constructor
    · rintro ⟨m', h1, h2⟩; cases h1; rw [← h2]; rfl
    · intro h; cases h; exact ⟨m, rfl, rfl⟩
  | panic => rw [hm] at h; rw [← h]; constructor <;> (intro h; first | (obtain ⟨m, h, -⟩ := h; cases h) | cases h)
  | diverge => rw [hm] at h; rw [← h]; constructor <;> (intro h; first | (obtain ⟨m, h, -⟩ := h; cases h) | cases h)

/-- the message, if any -/
def RM.msg {α : Type} : RM α → Option Msg
  | .err m => some m
  | _ => none

theorem msg_some {α : Type} {x : RM α} {m : Msg} (h : x.msg = some m) : x = .err m := by
  cases x <;> cases h; rfl

/-- Accepted texts have no message, rejected ones have one, which wraps the error that is reported. -/
theorem C80_wraps (E : Env) (s : Bytes) :
    (∀ v, unmarshalM E s = .ok v ↔ goUnmarshal E s = .ok (s, v, none)) ∧
    (∀ e, (∃ m, unmarshalM E s = .err m ∧ m.err = e) ↔ ∃ v, goUnmarshal E s = .ok (s, v, some e)) :=
  ⟨fun v => by rw [unmarshalM_ok_iff, goUnmarshal_ok]; simp, fun e => by rw [unmarshalM_err_iff, goUnmarshal_err]⟩

/-- What a message says is so. -/
theorem C80_says (E : Env) (hE : FloatSyntax E) {s : Bytes} {m : Msg} (h : unmarshalM E s = .err m) : TextSays (AccNum E) s m := by
  have he : NumTok E = AccNum E := funext fun t => propext (numTok_iff hE t)
  rw [← he]
  exact unmarshalM_says h

/-- A message that points at a byte does not depend on what follows it. -/
theorem C80_points (E : Env) {s : Bytes} {m : Msg} {q : Nat} (h : unmarshalM E s = .err m) (hq : fault m = some q) :
    q < s.length ∧ ∀ s', s'.take (q + 1) = s.take (q + 1) → unmarshalM E s' = .err m := by
  obtain ⟨d, x, u, rfl, rfl, hu⟩ := unmarshalM_local h hq
  refine ⟨by simp, fun s' hs' => ?_⟩
  have h1 : s' = d ++ [x] ++ s'.drop (d.length + 1) := by
    conv => lhs; rw [← List.take_append_drop (d.length + 1) s', hs']
    rw [show d ++ x :: u = (d ++ [x]) ++ u by simp, List.take_left' (by simp)]
  rw [h1, List.append_assoc]
  exact hu _

/-- The text up to where `viable` says can be completed to one that is accepted; what stands before data that should not be there is accepted as it is. -/
theorem C80_completes (E : Env) {s : Bytes} {m : Msg} {q : Nat} (h : unmarshalM E s = .err m) (hq : viable s.length m = some q) :
    q ≤ s.length ∧ ∃ w v, goUnmarshal E (s.take q ++ w) = .ok (s.take q ++ w, v, none) ∧ ∀ p, m = .trailing p → w = [] := by
  obtain ⟨d, u, w, v, rfl, rfl, h1, h2⟩ := unmarshalM_viable h hq
  refine ⟨by simp, w, v, ?_, h2⟩
  simp only [List.take_left]
  exact ((C80_wraps E _).1 v).1 h1

/-- The position of the five messages about a byte that must not stand where it does is that of the first such byte: what stands before it can go on
to be an accepted text, and nothing longer can. -/
theorem C80_first (E : Env) {s : Bytes} {m : Msg} {q : Nat} (h : unmarshalM E s = .err m)
    (hm : m = .trailing q ∨ m = .noKey q ∨ m = .noColon q ∨ m = .badUTF8 q ∨ ∃ c, m = .badChar c q) (n : Nat) (hn : n ≤ s.length) :
    (∃ w v, goUnmarshal E (s.take n ++ w) = .ok (s.take n ++ w, v, none)) ↔ n ≤ q := by
  have hf : fault m = some q := by rcases hm with rfl | rfl | rfl | rfl | ⟨c, rfl⟩ <;> rfl
  have hv : viable s.length m = some q := by rcases hm with rfl | rfl | rfl | rfl | ⟨c, rfl⟩ <;> rfl
  constructor
  · rintro ⟨w, v, hw⟩
    refine Classical.byContradiction fun hlt => ?_
    have := (C80_points E h hf).2 (s.take n ++ w) (by
      rw [List.take_append_of_le_length (by rw [List.length_take]; omega), List.take_take]
      congr 1; omega)
    rw [((C80_wraps E _).1 v).2 hw] at this
    cases this
  · intro hle
    obtain ⟨-, w, v, hw, -⟩ := C80_completes E h hv
    have h1 : s.take q = s.take n ++ (s.take q).drop n := by
      conv => lhs; rw [← List.take_append_drop n (s.take q), List.take_take, Nat.min_eq_left hle]
    rw [h1, List.append_assoc] at hw
    exact ⟨_, v, hw⟩

/-- A text that can be completed to an accepted one is not blamed on a byte, whereas a message that only says what is missing at the end has a completion. -/
theorem C80_incomplete (E : Env) {s : Bytes} {m : Msg} (h : unmarshalM E s = .err m) :
    ((∃ w v, goUnmarshal E (s ++ w) = .ok (s ++ w, v, none)) → fault m = none) ∧
    (m = .nilParameter ∨ m = .noSymbol ∨ m = .noBracket ∨ m = .noBrace ∨ m = .noQuote → ∃ w v, goUnmarshal E (s ++ w) = .ok (s ++ w, v, none)) := by
  refine ⟨fun ⟨w, v, hw⟩ => ?_, fun hm => ?_⟩
  · cases hf : fault m with
    | none => rfl
    | some q =>
      obtain ⟨h1, h2⟩ := C80_points E h hf
      have := h2 (s ++ w) (by rw [List.take_append_of_le_length (by omega)])
      rw [((C80_wraps E _).1 v).2 hw] at this
      cases this
  · have hv : viable s.length m = some s.length := by rcases hm with rfl | rfl | rfl | rfl | rfl <;> rfl
    obtain ⟨-, w, v, hw, -⟩ := C80_completes E h hv
    rw [List.take_length] at hw
    exact ⟨w, v, hw⟩

/-- `expect at least L remaining bytes, but got G`: the two numbers are exchanged. L bytes remain, more than there are, G, are needed. -/
theorem C80_short_rune (E : Env) (hE : FloatSyntax E) {s : Bytes} {least got p : Nat} (h : unmarshalM E s = .err (.shortRune least got p)) :
    least < got ∧ s.length = p + least := by
  obtain ⟨a, b, h1, h2, c, t, h3, -, h5, h6⟩ := C80_says E hE h
  refine ⟨h6, ?_⟩
  rw [h1, List.length_append, h5, h2]; omega

/-- As one would expect a message about two colons to give the position of one of them: false, see `C80_colons_counterexample`. -/
def C80_colons_statement : Prop := ∀ (E : Env) (s : Bytes) (p : Nat), unmarshalM E s = .err (.dupColon p) → s[p]? = some 0x3A

theorem C80_colons_counterexample : ¬ C80_colons_statement := fun h => by
  have := h sampleEnv (asc "{\"a\"::1}") 2 (msg_some (by decide +kernel))
  exact absurd this (by decide +kernel)

/-- As one would expect a number that is said to exceed the limit to do so: false, see `C80_range_counterexample`. -/
def C80_range_statement : Prop := ∀ (E : Env) (tok : Bytes) (p : Nat), FloatSyntax E → Digits tok →
  unmarshalM E (0x2D :: tok) = .err (.num .absTooLarge p) → 2 ^ 63 < decVal tok

theorem C80_range_counterexample : ¬ C80_range_statement := fun h => by
  have := h { sampleEnv with parseFloat := fun _ => none } (asc "01234567890123456789") 0 (fun _ _ h => absurd rfl h) (digits_of (by decide +kernel)) (msg_some (by decide +kernel))
  exact absurd this (by decide +kernel)

/-! ### cases -/

/-- the hypotheses of `C80_says` -/
example : TextSays (AccNum { sampleEnv with parseFloat := fun _ => none }) (asc "[1.5]") (.num (.float (asc "1.5")) 1) :=
  C80_says _ (fun _ _ h => absurd rfl h) (msg_some (by decide +kernel))

/-- position 6, the byte there cannot follow, what stands before can be completed -/
example : unmarshalM sampleEnv (asc "{\"a\": ]") = .err (.badChar 0x5D 6) := msg_some (by decide +kernel)
example : unmarshalM sampleEnv (asc "{\"a\" 1}") = .err (.noColon 5) := msg_some (by decide +kernel)
example : unmarshalM sampleEnv (asc "{ : 1}") = .err (.noKey 2) := msg_some (by decide +kernel)
example : unmarshalM sampleEnv (asc "[true] x") = .err (.trailing 7) := msg_some (by decide +kernel)
example : unmarshalM sampleEnv ([0x22, 0xFF, 0x22]) = .err (.badUTF8 1) := msg_some (by decide +kernel)
example : unmarshalM sampleEnv (asc "[{\"a\":[1,") = .err .noBracket := msg_some (by decide +kernel)
example : unmarshalM sampleEnv (asc "{\"a\"") = .err .noBrace := msg_some (by decide +kernel)
example : unmarshalM sampleEnv (asc "{\"a") = .err .noQuote := msg_some (by decide +kernel)
example : unmarshalM sampleEnv (asc "{\"a\",}") = .err (.noValue [0x61] 2) := msg_some (by decide +kernel)
example : unmarshalM sampleEnv (asc "\"\\ud800\\u0041\"") = .err (.utf16Second 0xD800 9) := msg_some (by decide +kernel)
example : unmarshalM sampleEnv (asc "[1-]") = .err (.num .minus 2) := msg_some (by decide +kernel)
example : unmarshalM sampleEnv ([0x22, 0xE4, 0xBD]) = .err (.shortRune 2 3 1) := msg_some (by decide +kernel)
example : unmarshalM sampleEnv (asc "[nulx") = .err (.notNull 1) := msg_some (by decide +kernel)

end JV
