import Verif.Proofs.Base64
import Verif.Props.Typed
/-!
C41 and the `GetBytes` part of C30: byte strings stored as base64.
-/
namespace JV
open Spec

/-- `NewBytes(b).Bytes()` is `b`, for every byte string. -/
theorem C41_bytes (b : Bytes) : bytes (newBytes b) = .ok b := by
  simp only [bytes, newBytes, b64Decode_encode]

/-- What is stored is a string holding the one RFC 4648 base64 text of `b`. -/
theorem C41_rfc4648 (b : Bytes) : ∃ t, newBytes b = .str t ∧ Base64Strict b t ∧ ∀ t', Base64Strict b t' → t' = t :=
  ⟨_, rfl, b64Encode_strict b, fun _ h => strict_unique h (b64Encode_strict b)⟩

/-- C41 as stated, for `SetBytes` and `GetBytes`. False where Set itself does not put the value at its path: see `C41_counterexample`. -/
def C41_statement : Prop := ∀ (E : Env) (v v' : V) (b : Bytes) (ps : List Param) (l : List Step),
  set E v { c := newBytes b } ps = (v', .ok l) → getBytes E false v' ps = .ok (b, none)

/-- `SetBytes(b).At(ps)` then `GetBytes(ps)` returns `b`, provided no index before the last parameter skips over the end of an array. -/
theorem C41_set_get_partial (E : Env) (v v' : V) (b : Bytes) (ps : List Param) (l : List Step)
    (h : set E v { c := newBytes b } ps = (v', .ok l)) (hs : ¬ Skips v ps) : getBytes E false v' ps = .ok (b, none) := by
  have hg := C19_set_get_partial E v v' _ ps l h hs
  unfold getBytes typedGet
  unfold get at hg
  rw [hg]
  simp only [newBytes, b64Decode_encode]

/-- Whatever the path, the value SetBytes stored is where it reports it and its `Bytes()` is `b`. -/
theorem C41_set_bytes (E : Env) (v v' : V) (b : Bytes) (ps : List Param) (l : List Step)
    (h : set E v { c := newBytes b } ps = (v', .ok l)) : ∃ c, v'.at l = some c ∧ bytes c = .ok b :=
  ⟨_, (C19_returns_child E v v' _ ps l h).1, C41_bytes b⟩

theorem C41_counterexample : ¬ C41_statement := by
  intro h
  have := h sampleEnv (.arr []) (.arr [.obj 1 [⟨asc "a", 1, newBytes [1, 2]⟩] none]) [1, 2] [.int 5, .str (asc "a")] [.idx 0, .key (asc "a")]
    (by decide +kernel)
  revert this
  decide +kernel

/-- `Bytes()` decodes exactly the base64 texts (with line breaks anywhere, and any value of the unused bits), and gives the empty string for
every other value. -/
theorem C41_bytes_exact (v : V) (hv : v ≠ .nilp) :
    (∀ t tail b, v = .str t → Base64 tail b (noBreaks t) → bytes v = .ok b) ∧
    ((¬ ∃ t tail b, v = .str t ∧ Base64 tail b (noBreaks t)) → bytes v = .ok []) := by
  constructor
  · rintro t tail b rfl h
    have := (b64Decode_iff t b).2 ⟨_, h⟩
    simp only [bytes, this]
  · intro h
    cases v with
    | nilp => exact absurd rfl hv
    | str t =>
      cases ht : b64Decode t with
      | none => simp only [bytes, ht]
      | some b =>
        obtain ⟨tail, hb⟩ := (b64Decode_iff t b).1 ht
        exact absurd ⟨t, tail, b, rfl, hb⟩ h
    | _ => rfl

/-- `GetBytes` never panics on a value without nil pointers. -/
theorem C30_getBytes_total (E : Env) (cl : Bool) (v : V) (ps : List Param) (hn : NoNil v) (hne : ps ≠ []) :
    ∃ x e, getBytes E cl v ps = .ok (x, e) := by
  unfold getBytes typedGet
  rcases getC_cases E cl v ps hne hn with ⟨l, c, d, h1, -, -, h4⟩ | ⟨e, h⟩
  · rw [h1]
    cases c with
    | nilp => exact absurd rfl h4
    | str t => cases ht : b64Decode t <;> exact ⟨_, _, by simp only [ht]; rfl⟩
    | _ => exact ⟨_, _, rfl⟩
  · rw [h]; exact ⟨_, _, rfl⟩

/-- What `GetBytes` returns: the decoded bytes with nil error for a base64 text, otherwise the empty string with an error (that of Get,
ErrTypeNotMatch for a value that is not a string, the decoder's for a bad text). -/
theorem C30_getBytes_results (E : Env) (cl : Bool) (v : V) (ps : List Param) :
    (∀ e, (getC E cl v ps).2 = .err e → getBytes E cl v ps = .ok ([], some e)) ∧
    (∀ c, (getC E cl v ps).2 = .ok c → c ≠ .nilp → (∀ t, c ≠ .str t) → getBytes E cl v ps = .ok ([], some .typeNotMatch)) ∧
    (∀ t tail b, (getC E cl v ps).2 = .ok (.str t) → Base64 tail b (noBreaks t) → getBytes E cl v ps = .ok (b, none)) ∧
    (∀ t, (getC E cl v ps).2 = .ok (.str t) → (¬ ∃ tail b, Base64 tail b (noBreaks t)) → getBytes E cl v ps = .ok ([], some .other)) := by
  unfold getBytes typedGet
  refine ⟨fun e h => by rw [h], fun c h hn hs => ?_, fun t tail b h hb => ?_, fun t h hb => ?_⟩
  · rw [h]
    cases c with
    | nilp => exact absurd rfl hn
    | str t => exact absurd rfl (hs t)
    | _ => rfl
  · rw [h]; simp only [(b64Decode_iff t b).2 ⟨_, hb⟩]
  · rw [h]
    cases ht : b64Decode t with
    | none => simp only [ht]
    | some b =>
      obtain ⟨tail, hb'⟩ := (b64Decode_iff t b).1 ht
      exact absurd ⟨tail, b, hb'⟩ hb

-- all three lengths modulo 3
example : newBytes (asc "Man") = .str (asc "TWFu") := by decide +kernel
example : newBytes (asc "Ma") = .str (asc "TWE=") := by decide +kernel
example : newBytes (asc "M") = .str (asc "TQ==") := by decide +kernel
-- line breaks are skipped, and the unused bits may be set
example : bytes (.str (asc "TW\nE=")) = .ok (asc "Ma") := by decide +kernel
example : bytes (.str (asc "TWF=")) = .ok (asc "Ma") := by decide +kernel
-- not base64
example : bytes (.str (asc "TWE")) = .ok [] := by decide +kernel
example : getBytes sampleEnv false (.obj 1 [⟨asc "a", 1, .str (asc "T=E=")⟩] none) [.str (asc "a")] = .ok ([], some .other) := by decide +kernel
-- SetBytes on a document, and the hypotheses of `C41_set_get_partial`
example : set sampleEnv sampleDoc { c := newBytes [0, 255] } [.str (asc "a"), .int 1] =
      (.obj 2 [⟨asc "a", 1, .arr [sampleNum "1", newBytes [0, 255]]⟩, ⟨asc "c", 2, .bool true⟩] none, .ok [.key (asc "a"), .idx 1]) := by decide +kernel

end JV
