import Verif.Proofs.Describe
import Verif.Props.Compare
/-!
C63: String() describes every value.
-/
namespace JV
open Spec

/-- String() of any value, nil or with nil inside included, returns a text, and it is the description: the contents of a string, the digits of a
number, `nil`, `null`, `true`, `false`, nothing for NotExist, `[a, b]` for an array, `{k: a, l: b}` for an object. -/
theorem C63_describes (E : Env) (v : V) : ∃ t, describe E v = .ok t ∧ Describes E.fmtFloat v t := describe_ok E v

/-- Nothing more can be said about the order: each order of the members of each object is what String() shows if the map is iterated in that order. -/
theorem C63_any_order (E : Env) (v : V) (t : Bytes) (h : Describes E.fmtFloat v t) : ∃ w, Shuffled v w ∧ describe E w = .ok t :=
  describes_shuffled E h

/-- a string is shown as it is, byte for byte -/
theorem C63_string (E : Env) (s t : Bytes) : describe E (.str s) = .ok t ↔ t = s := by
  rw [describe]; constructor
  · intro h; cases h; rfl
  · rintro rfl; rfl

/-- Numbers, booleans and null are shown as Marshal writes them, if Marshal writes them without an option for NaN and Inf. -/
theorem C63_as_marshalled (E : Env) (S : SortFn) (d : Opt) (opts : List MOpt) (v : V)
    (hv : v = .null ∨ (∃ b, v = .bool b) ∨ ∃ src n, v = .num src n ∧ src ≠ []) :
    ∃ t, describe E v = .ok t ∧ marshal E S d v opts = .ok (t, none) := by
  rcases hv with rfl | ⟨b, rfl⟩ | ⟨src, n, rfl, hs⟩
  · refine ⟨nullText, rfl, ?_⟩
    rw [marshal_eq d (marshalable_scalar (v := .null) trivial (by simp) (by simp))]
    rfl
  · refine ⟨formatBool b, rfl, ?_⟩
    rw [marshal_eq d (marshalable_scalar (v := .bool b) trivial (by simp) (by simp))]
    cases b <;> rfl
  · exact ⟨src, by rw [describe, if_pos (List.length_pos_iff.2 hs)], marshal_num E S d opts n hs⟩

/-- For numbers, booleans, null and arrays of them, nested to any depth, the description is JSON: Unmarshal reads it back as an Equal value. -/
theorem C63_listing (E : Env) (D : DecFn) (v : V) (h : Listing E v) :
    ∃ t w, describe E v = .ok t ∧ goUnmarshal E t = .ok (t, w, none) ∧ equal D v w = true := by
  obtain ⟨t, j, h1, h2, h3, h4⟩ := listing_text E (valOf D) h
  have hu : unmarshal E t = .ok (toV E j) :=
    (unmarshal_iff E t _).2 ⟨j, strict_text E ⟨[], t, [], by simp, by simp [Ws], h2, by simp [Ws]⟩ h3, rfl⟩
  have hw : Her KeysNodup (toV E j) := fun l c hc => by
    have := her_unmarshal_good hu l c hc
    cases c with
    | obj n kvs low => exact this.1
    | _ => trivial
  have hv : Her KeysNodup v := by
    clear h1 h2 h3 h4 hu hw
    induction h with
    | null => exact her_leaf trivial trivial
    | bool b => exact her_leaf trivial trivial
    | num src n _ _ _ => exact her_leaf trivial trivial
    | arr xs _ ih => exact her_of_kids trivial fun c hc => ih c (by simpa [Kid] using hc)
  exact ⟨t, toV E j, h1, goUnmarshal_ok.2 ⟨rfl, hu⟩, (equal_iff D v _ hv hw).2 h4⟩

/-- Not so for strings and objects: different values may look the same, so that String() cannot be used to compare values. -/
theorem C63_ambiguous : ∃ v w : V, (∀ E, ∃ t, describe E v = .ok t ∧ describe E w = .ok t) ∧ (∀ D, equal D v w = false) ∧
    Her KeysNodup v ∧ Her KeysNodup w := by
  refine ⟨.arr [.str (asc "a"), .str (asc "b")], .arr [.str (asc "a, b")], fun E => ⟨asc "[a, b]", rfl, rfl⟩, fun D => rfl, ?_, ?_⟩
  · exact her_of_kids trivial fun c hc => by
      have : c = .str (asc "a") ∨ c = .str (asc "b") := by simpa [Kid] using hc
      rcases this with rfl | rfl <;> exact her_leaf trivial trivial
  · exact her_of_kids trivial fun c hc => by
      have : c = .str (asc "a, b") := by simpa [Kid] using hc
      subst this; exact her_leaf trivial trivial

/-- ValueType().String() names the kind of every value that is not nil; on nil ValueType panics. -/
theorem C63_type_names (v : V) (w : String) (h : TypeWord v w) : ∃ t, valueType v = .ok t ∧ typeName t = .ok (asc w) := by
  cases h <;> exact ⟨_, rfl, by decide⟩

theorem C63_type_nil : valueType .nilp = .panic := rfl

theorem C63_type_named (v : V) (h : v ≠ .nilp) : ∃ w, TypeWord v w := by
  cases v with
  | nilp => exact absurd rfl h
  | notExist => exact ⟨_, .notExist⟩
  | str s => exact ⟨_, .str s⟩
  | num src n => exact ⟨_, .num src n⟩
  | bool b => exact ⟨_, .bool b⟩
  | null => exact ⟨_, .null⟩
  | arr xs => exact ⟨_, .arr xs⟩
  | obj n kvs low => exact ⟨_, .obj n kvs low⟩

/-- ValueType.String() returns a name for every int, `illegal` outside the range of the constants. -/
theorem C63_type_total (t : Int) : (∃ s, typeName t = .ok s) ∧ (t < 0 ∨ t > 7 → typeName t = .ok (asc "illegal")) := by
  have hin : ∀ n : Nat, n ≤ 7 → ∃ s, typeName n = .ok s := fun n hn => by
    have : n = 0 ∨ n = 1 ∨ n = 2 ∨ n = 3 ∨ n = 4 ∨ n = 5 ∨ n = 6 ∨ n = 7 := by omega
    rcases this with rfl | rfl | rfl | rfl | rfl | rfl | rfl | rfl <;> exact ⟨_, rfl⟩
  have hout : t < 0 ∨ t > 7 → typeName t = .ok (asc "illegal") := fun h => by
    have : (if t > 7 then (0 : Int) else if t < 0 then 0 else t) = 0 := by
      by_cases h1 : t > 7
      · rw [if_pos h1]
      · rw [if_neg h1, if_pos (by omega)]
    unfold typeName
    simp only [this]
    decide
  refine ⟨?_, hout⟩
  by_cases h : t < 0 ∨ t > 7
  · exact ⟨_, hout h⟩
  · obtain ⟨s, hs⟩ := hin t.toNat (by omega)
    rw [Int.toNat_of_nonneg (by omega)] at hs
    exact ⟨s, hs⟩

-- a description with everything in it
example (E : Env) : describe E (.obj 3 [⟨asc "k", 0, .arr [.null, .nilp, .num (asc "1.50") default]⟩, ⟨asc "l", 1, .str (asc "x")⟩] none) =
    .ok (asc "{k: [null, nil, 1.50], l: x}") := rfl

-- the hypothesis of C63_listing
example : Listing sampleEnv (.arr [.num (asc "-12") default, .arr [.bool true, .null], .arr []]) := by
  refine .arr _ fun x hx => ?_
  simp only [List.mem_cons, List.not_mem_nil, or_false] at hx
  rcases hx with rfl | rfl | rfl
  · have hi : JInt true (asc "12") (asc "-12") := ⟨Or.inr ⟨0x31, [0x32], rfl, by decide, by decide, by simp [Digits, Digit]⟩, rfl⟩
    have hu : ∀ neg ip, JInt neg ip (asc "-12") → neg = true ∧ ip = asc "12" := fun neg ip h => by
      obtain ⟨hp, ht⟩ := h
      cases neg with
      | true => exact ⟨rfl, by simpa [sign, asc] using ht.symm⟩
      | false =>
        have : ip = asc "-12" := by simpa [sign] using ht.symm
        subst this
        have := (intPart_digits hp).1 0x2D (by decide)
        exact absurd this (by unfold Digit; decide)
    have hf : ∀ neg ip, ¬ JFloat neg ip (asc "-12") := fun neg ip ⟨fp, ep, hp, h1, h2, h3, ht⟩ => by
      have hno : ∀ c ∈ asc "-12", c ≠ 0x2E ∧ c ≠ 0x65 ∧ c ≠ 0x45 := by decide
      rcases h1 with rfl | ⟨ds, rfl, _⟩
      · rcases h2 with rfl | ⟨e, sg, ds, rfl, he, _⟩
        · exact h3 rfl
        · have := hno e (by rw [ht]; simp)
          rcases he with rfl | rfl
          · exact this.2.1 rfl
          · exact this.2.2 rfl
      · exact (hno 0x2E (by rw [ht]; simp)).1 rfl
    refine .num _ _ (Or.inl ⟨_, _, hi⟩) ⟨fun neg ip h => ?_, fun neg ip h => absurd h (hf neg ip)⟩ fun neg ip h => absurd h (hf neg ip)
    obtain ⟨rfl, rfl⟩ := hu neg ip h
    decide
  · refine .arr _ fun x hx => ?_
    simp only [List.mem_cons, List.not_mem_nil, or_false] at hx
    rcases hx with rfl | rfl
    · exact .bool _
    · exact .null
  · exact .arr _ fun x hx => by simp at hx

end JV
