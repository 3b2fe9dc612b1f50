import Verif.Proofs.Size
import Verif.Props.Work
/-!
C78: how big values and texts may get.
-/
namespace JV
open Spec

/-- A parsed value is not bigger than its text: the keys, strings and numbers in it have together no more bytes than the text, and there are not
more nodes than bytes. -/
theorem C78_value (E : Env) (s : Bytes) (v : V) (h : unmarshal E s = .ok v) : weight v ≤ s.length := unmarshal_weight h

/-- What Marshal writes on one line has less than six bytes for each byte of the value, whatever the options are. -/
theorem C78_marshal (E : Env) (S : SortFn) (d : Opt) (v : V) (opts : List MOpt) (b : Bytes) (hS : GoodSort S) (hv : Marshalable v) (hn : Her NumHasText v)
    (hi : (combineOptions d opts).indent = none) (h : marshal E S d v opts = .ok (b, none)) : b.length < 6 * weight v := by
  have := marshal_size hS hv hn h
  rw [hi] at this
  simp only [lineLen, Nat.mul_zero, Nat.add_zero] at this
  omega

/-- With OptIndent: two bytes, the prefix and the indentation of the deepest level more for each byte of the value. -/
theorem C78_indented (E : Env) (S : SortFn) (d : Opt) (v : V) (opts : List MOpt) (b pre ind : Bytes) (hS : GoodSort S) (hv : Marshalable v) (hn : Her NumHasText v)
    (hi : (combineOptions d opts).indent = some (pre, ind)) (h : marshal E S d v opts = .ok (b, none)) :
    b.length < weight v * (8 + pre.length + nesting v * ind.length) := by
  have h1 := marshal_size hS hv hn h
  rw [hi] at h1
  have h2 := breaks_weight v hv.1 hn
  have h3 := Nat.mul_le_mul_right (lineLen (some (pre, ind)) (nesting v)) (show breaks v ≤ weight v by omega)
  simp only [lineLen] at h1 h3
  have h4 : weight v * (8 + pre.length + nesting v * ind.length) = 6 * weight v + weight v * (2 + pre.length + nesting v * ind.length) := by
    rw [show 8 + pre.length + nesting v * ind.length = 6 + (2 + pre.length + nesting v * ind.length) by omega, Nat.mul_add, Nat.mul_comm (weight v) 6]
  omega

/-- Reading any text and writing it again, with any options but OptIndent, makes it less than six times as long. -/
theorem C78_rewritten (E : Env) (S : SortFn) (s : Bytes) (v : V) (opts : List MOpt) (b : Bytes) (hS : GoodSort S) (hr : unmarshal E s = .ok v)
    (hi : lastSet setsIndent opts none = none) (h : marshal E S emptyOptions v opts = .ok (b, none)) : b.length < 6 * s.length := by
  have := C78_marshal E S emptyOptions v opts b hS (parsed_marshalable hr) (parsed_hasText hr) ((set_indent opts).trans hi) h
  have := C78_value E s v hr
  omega

/-- With OptIndent the square of the length comes in, as an indentation may be as deep as half of the text. -/
theorem C78_rewritten_indented (E : Env) (S : SortFn) (s : Bytes) (v : V) (opts : List MOpt) (b pre ind : Bytes) (hS : GoodSort S) (hr : unmarshal E s = .ok v)
    (hi : lastSet setsIndent opts none = some (pre, ind)) (h : marshal E S emptyOptions v opts = .ok (b, none)) :
    b.length < s.length * (8 + pre.length + s.length / 2 * ind.length) := by
  have h1 := C78_indented E S emptyOptions v opts b pre ind hS (parsed_marshalable hr) (parsed_hasText hr) ((set_indent opts).trans hi) h
  have h2 := C78_value E s v hr
  have h3 := nesting_weight v
  have h4 := Nat.mul_le_mul_right ind.length (show nesting v ≤ s.length / 2 by omega)
  exact Nat.lt_of_lt_of_le h1 (Nat.mul_le_mul h2 (by omega))

/-- Six is what it takes: there is standard JSON of every length from 2 on that becomes six times as long, but for ten bytes, with every list of options. -/
theorem C78_tight (E : Env) (S : SortFn) (d : Opt) (opts : List MOpt) (n : Nat) :
    ∃ s v b, (∃ j, JText s j) ∧ s.length = n + 2 ∧ unmarshal E s = .ok v ∧ marshal E S d v opts = .ok (b, none) ∧ b.length + 10 = 6 * s.length := by
  have hd : StrBody (List.replicate n 0x7F) (List.replicate n 0x7F) ∧ LStr (List.replicate n 0x7F) (List.replicate n 0x7F) := by
    induction n with
    | zero => exact ⟨.nil, .nil⟩
    | succ n ih => exact ⟨.char 0x7F _ _ (.inl (by omega)) (by omega) (by omega) (by omega) ih.1, .ascii 0x7F _ _ (by decide) (by decide) (by decide) ih.2⟩
  have hm : Marshalable (.str (List.replicate n 0x7F)) := marshalable_scalar trivial (by simp) (by simp)
  refine ⟨0x22 :: List.replicate n 0x7F ++ [0x22], .str (List.replicate n 0x7F), textOf E S d (.str (List.replicate n 0x7F)) opts,
    ⟨.str (List.replicate n 0x7F), [], 0x22 :: List.replicate n 0x7F ++ [0x22], [], by simp, (by intro c h; cases h), .str _ _ ⟨_, rfl, hd.1⟩, (by intro c h; cases h)⟩, by simp,
    (unmarshal_iff E _ _).2 ⟨.str (List.replicate n 0x7F), ⟨[], _, [], by simp, (by intro c h; cases h), .str _ _ hd.2, (by intro c h; cases h)⟩, rfl⟩, ?_, ?_⟩
  · rw [marshal_eq d hm]; rfl
  · have := escText_del (optOf d opts).escProps n
    unfold textOf escOf doc Doc.print
    simp; omega

/-- And so does the square: n + 1 brackets in each other, written with an indent of one byte or more, are longer than n squared. -/
theorem C78_quadratic (E : Env) (S : SortFn) (opts : List MOpt) (pre ind : Bytes) (hi : lastSet setsIndent opts none = some (pre, ind)) (n : Nat) :
    ∃ v b, unmarshal E (List.replicate (n + 1) 0x5B ++ List.replicate (n + 1) 0x5D) = .ok v ∧ marshal E S emptyOptions v opts = .ok (b, none) ∧
      b.length = 2 * (n + 1) + 2 * n * (1 + pre.length) + n * n * ind.length := by
  have hu : unmarshal E (List.replicate (n + 1) 0x5B ++ List.replicate (n + 1) 0x5D) = .ok (toV E (deepJ n)) :=
    (unmarshal_iff E _ _).2 ⟨deepJ n, ⟨[], _, [], by simp, (by intro c h; cases h), deepJ_text n, (by intro c h; cases h)⟩, rfl⟩
  refine ⟨_, textOf E S emptyOptions (toV E (deepJ n)) opts, hu, ?_, ?_⟩
  · rw [marshal_eq _ (parsed_marshalable hu)]
    cases n <;> simp [deepJ, toV, toVL, errOf]
  · unfold textOf
    rw [show (optOf emptyOptions opts).indent = some (pre, ind) from (set_indent opts).trans hi, deepJ_print]
    simp

/-- a text of 25 bytes with no commas and a repeated key: the value weighs 12, its text has 13 bytes, indented 31 -/
example : ∃ v, unmarshal sampleEnv (asc "{\"a\":[{} {}] \"a\":[{}{}]}") = .ok v ∧ weight v = 12 ∧
    marshal sampleEnv insertionSort emptyOptions v [] = .ok (asc "{\"a\":[{},{}]}", none) ∧
    marshal sampleEnv insertionSort emptyOptions v [.indent [] (asc "  ")] = .ok (asc "{\n  \"a\": [\n    {},\n    {}\n  ]\n}", none) := by
  refine ⟨(match unmarshal sampleEnv (asc "{\"a\":[{} {}] \"a\":[{}{}]}") with | .ok v => v | _ => .nilp), ?_, ?_, ?_, ?_⟩ <;> decide +kernel

end JV
