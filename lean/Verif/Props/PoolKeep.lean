import Verif.Proofs.PoolKeep
import Verif.Props.Parsing
/-! C101: what holding one value of a parsed document keeps in memory. -/
namespace JV
open Spec

/-- **C101 as stated**: of the values of the document, holding one keeps only those inside it -/
def C101_statement : Prop := ∀ (E : Env) (cnt : Nat) (b : Bytes) (v : NV) (p q : List Nat), (parseIn E cnt b).1 = .ok v →
  Keeps v p (.value q) → p <+: q

/-- the document of the examples: the array and its first element are in the arena, the string is not -/
def keepDoc : NV := .arr (.slot 0) [.arr (.slot 1) [], .leaf (.fresh 0) (.str (asc "x"))]

theorem keepDoc_parsed : (parseIn sampleEnv 3 (asc "[[],\"x\"]")).1 = .ok keepDoc ∧ (parseIn sampleEnv 3 (asc "[[],\"x\"]")).2.actual = 2 := by
  constructor <;> rfl

/-- It does not hold: of `[[],"x"]` the empty array keeps the string. -/
theorem C101_counterexample : ¬ C101_statement := by
  intro h
  have h0 : Keeps keepDoc [0] (.value [0]) := .held (.elem rfl (.here _))
  have h1 : Keeps keepDoc [0] .arena := .arena h0 (.elem rfl (.here _)) rfl
  have h2 : Keeps keepDoc [0] (.value []) := .slot h1 (.here _) rfl
  have h3 : Keeps keepDoc [0] (.value [1]) := .child (q := []) h2 (.elem rfl (.here _))
  have := h _ _ _ _ _ _ keepDoc_parsed.1 h3
  revert this; decide

/-- in a parsed document, if anything at or below `p` is in the arena then the whole document is -/
theorem parsed_arena {E : Env} {cnt : Nat} {b : Bytes} {v : NV} (h : (parseIn E cnt b).1 = .ok v) (hc : 0 < cnt) {p : List Nat}
    (ha : ArenaBelow v p) : InArena v := by
  obtain ⟨r, -, x, hx, hs⟩ := ha
  rcases (parseIn_good h).2 with ⟨n, w, rfl⟩ | hn
  · cases hx; exact hs
  · refine ⟨0, hn.trans ?_⟩
    simp [Pool.get, Pool.new, hc]

/-- **C101, what is true of it**: it holds for a string, a boolean and null, and for every value if the text was too
short for an arena. -/
theorem C101_partial (E : Env) (cnt : Nat) (b : Bytes) (v x : NV) (p q : List Nat) (h : (parseIn E cnt b).1 = .ok v)
    (hx : At v p x) (hk : ¬ Pooled x ∨ cnt = 0) (hq : Keeps v p (.value q)) : p <+: q := by
  rcases (keeps_value ⟨x, hx⟩).mp hq with ⟨-, g | ⟨⟨r, ⟨r', rfl⟩, y, hy, i, hi⟩, -⟩⟩
  · exact g
  · exfalso
    rcases hk with hk | rfl
    · obtain ⟨x', h1, h2⟩ := At.split hy
      cases At.unique hx h1
      cases x with
      | leaf n w =>
        cases h2
        have hm := (parseIn_good h).1.at hx
        cases hm with
        | leaf g1 _ _ => exact hk (g1 ⟨i, hi⟩)
      | arr n xs => exact hk trivial
      | obj n c kvs => exact hk trivial
    · obtain ⟨h1, -, h3⟩ := parseIn_fine E 0 b
      have hi' := (h3 v h).2 _ (at_node_mem hy)
      rw [hi] at hi'
      have hl : (parseIn E 0 b).2.count = 0 := h1.2.1
      simp only [Issued] at hi'
      omega

example : (parseIn sampleEnv 3 (asc "[[],\"x\"]")).1 = .ok keepDoc ∧ ∃ x, At keepDoc [1] x ∧ ¬ Pooled x :=
  ⟨keepDoc_parsed.1, _, .elem rfl (.here _), by rintro ⟨_, _, h⟩; cases h⟩

/-- **C101, exactly**, with an arena: a value keeps what is inside it, and the whole document as soon as it, or
something inside it, is in the arena. -/
theorem C101_exact (E : Env) (cnt : Nat) (b : Bytes) (v : NV) (p q : List Nat) (h : (parseIn E cnt b).1 = .ok v) (hc : 0 < cnt)
    (hp : ∃ x, At v p x) : Keeps v p (.value q) ↔ (∃ y, At v q y) ∧ (p <+: q ∨ ArenaBelow v p) := by
  rw [keeps_value hp]
  constructor
  · rintro ⟨h1, h2 | ⟨h2, -⟩⟩
    · exact ⟨h1, .inl h2⟩
    · exact ⟨h1, .inr h2⟩
  · rintro ⟨h1, h2 | h2⟩
    · exact ⟨h1, .inl h2⟩
    · exact ⟨h1, .inr ⟨h2, [], List.nil_prefix, v, .here v, parsed_arena h hc h2⟩⟩

/-- If the arena was large enough for the document, any number, array or object of it keeps the whole document. -/
theorem C101_whole (E : Env) (cnt : Nat) (b : Bytes) (v x y : NV) (p q : List Nat) (h : (parseIn E cnt b).1 = .ok v)
    (hc : (parseIn E cnt b).2.actual ≤ cnt) (hp : At v p x) (hx : Pooled x) (hq : At v q y) : Keeps v p (.value q) := by
  have hs : InArena x := by
    have hm := (parseIn_good h).1.at hp
    cases hm with
    | leaf _ h2 _ => exact h2 hc hx
    | arr h2 _ => exact h2 hc
    | obj h2 _ => exact h2 hc
  have h0 : 0 < cnt := by
    rcases Nat.eq_zero_or_pos cnt with rfl | h0
    · exfalso
      obtain ⟨i, hi⟩ := hs
      obtain ⟨h1, -, h3⟩ := parseIn_fine E 0 b
      have hi' := (h3 v h).2 _ (at_node_mem hp)
      rw [hi] at hi'
      have hl : (parseIn E 0 b).2.count = 0 := h1.2.1
      simp only [Issued] at hi'
      omega
    · exact h0
  exact (C101_exact E cnt b v p q h h0 ⟨x, hp⟩).mpr ⟨⟨y, hq⟩, .inr ⟨p, List.prefix_refl _, x, hp, hs⟩⟩

example : (parseIn sampleEnv 3 (asc "[[],\"x\"]")).2.actual ≤ 3 ∧ ∃ x, At keepDoc [0] x ∧ Pooled x :=
  ⟨by rw [keepDoc_parsed.2]; decide, _, .elem rfl (.here _), trivial⟩

/-- The text is kept exactly by a string, a number, an object with a member, and whatever keeps one of these. -/
theorem C101_text (E : Env) (cnt : Nat) (b : Bytes) (v : NV) (p : List Nat) (h : (parseIn E cnt b).1 = .ok v) (hc : 0 < cnt)
    (hp : ∃ x, At v p x) : Keeps v p .text ↔ ∃ q, Has v q Wordy ∧ (p <+: q ∨ ArenaBelow v p) := by
  rw [keeps_text]
  constructor
  · rintro ⟨q, h1, h2⟩
    exact ⟨q, h2, ((C101_exact E cnt b v p q h hc hp).mp h1).2⟩
  · rintro ⟨q, ⟨x, hx, hw⟩, h2⟩
    exact ⟨q, (C101_exact E cnt b v p q h hc hp).mpr ⟨⟨x, hx⟩, h2⟩, x, hx, hw⟩

/-- the empty array of `[[],"x"]` keeps the text -/
example : Keeps keepDoc [0] .text :=
  (C101_text sampleEnv 3 _ keepDoc [0] keepDoc_parsed.1 (by decide) ⟨_, .elem rfl (.here _)⟩).mpr
    ⟨[1], ⟨_, .elem rfl (.here _), .inl ⟨_, rfl⟩⟩, .inr ⟨[0], List.prefix_refl _, _, .elem rfl (.here _), 1, rfl⟩⟩

/-- the copy is the one of `Import` (`deepCopy` in Model/Import), for every part of a parsed document -/
theorem C101_copy_value (E : Env) (cnt : Nat) (b : Bytes) (v x : NV) (p : List Nat) (n : Nat) (h : (parseIn E cnt b).1 = .ok v)
    (hp : At v p x) : (x.copy n).1.toV = deepCopy x.toV := by
  refine copy_toV x n (fun q m w ha => ?_)
  have hm := (parseIn_good h).1.at (At.append hp ha)
  cases hm with
  | leaf _ _ h3 => exact h3

/-- A copy of a part, made with `Import`, does not keep the arena, whichever value of the copy is held; the whole copy
still keeps the text, unless there is no string, number or object with a member in it. -/
theorem C101_copy (x : NV) (h : Nat) :
    (∀ p, ¬ Keeps (x.copy h).1 p .arena) ∧ (Keeps (x.copy h).1 [] .text ↔ ∃ q, Has x q Wordy) := by
  constructor
  · intro p hk
    cases hk with
    | arena _ ha hn =>
      obtain ⟨z, m, -, rfl⟩ := copy_at _ _ _ _ ha
      rw [copy_fresh] at hn
      cases hn
  · rw [keeps_text]
    constructor
    · rintro ⟨q, -, y, hy, hw⟩
      obtain ⟨z, m, hz, rfl⟩ := copy_at _ _ _ _ hy
      exact ⟨q, z, hz, (copy_wordy z m).mp hw⟩
    · rintro ⟨q, z, hz, hw⟩
      obtain ⟨m, hm⟩ := at_copy hz h
      exact ⟨q, keeps_below (q := []) q (.held (.here _)) hm, _, hm, (copy_wordy z m).mpr hw⟩

example : Keeps (keepDoc.copy 1).1 [] .text := (C101_copy keepDoc 1).2.mpr ⟨[1], _, .elem rfl (.here _), .inl ⟨_, rfl⟩⟩

end JV
