import Verif.Proofs.Stable
import Verif.Props.Ieee
/-!
C85: a document that was read from a text, written and read again is the same document.
-/
namespace JV
open Spec

/-- the value, and what Unmarshal makes of its text, whatever numbers are compared by -/
theorem reread (E : Env) (S : SortFn) (d : Opt) (v : V) (opts : List MOpt) (hS : GoodSort S) (hk : Her KeysNodup v)
    (hp : Her (Portable E) v) (hi : BlankIndent (combineOptions d opts).indent) (ho : (combineOptions d opts).omitNull = false) :
    ∃ b w, marshal E S d v opts = .ok (b, none) ∧ goUnmarshal E b = .ok (b, w, none) ∧ ∀ val, EqualTo val v w := by
  have hpr := portable_printable (o := combineOptions d opts) hp
  have hm : Marshalable v := ⟨hk, noNil_her fun l c hc => (portable_solid hp l c hc).1, (her_self (portable_solid hp)).2⟩
  have hb := marshal_printable (S := S) d hm (her_self hpr)
  obtain ⟨j, w, h1, h2, h3⟩ := C12_replaced E S d v opts _ hS hm hpr hi hb
  exact ⟨_, w, hb, h2, fun val => shows_equal ho h1 hk hp h3⟩

/-- A value whose numbers are what Unmarshal makes of their texts: Marshal with any options for escaping, order and blanks and then Unmarshal give an
identical value. -/
theorem C85_canonical (E : Env) (S : SortFn) (d : Opt) (v : V) (opts : List MOpt) (hS : GoodSort S) (hk : Her KeysNodup v) (hp : Her (Portable E) v)
    (hc : Her (Canon E) v) (hi : BlankIndent (combineOptions d opts).indent) (ho : (combineOptions d opts).omitNull = false) :
    ∃ b w, marshal E S d v opts = .ok (b, none) ∧ goUnmarshal E b = .ok (b, w, none) ∧ Identical v w := by
  obtain ⟨b, w, h1, h2, h3⟩ := reread E S d v opts hS hk hp hi ho
  have hw := (goUnmarshal_ok.1 h2).2
  exact ⟨b, w, h1, h2, identical_of_equalTo (h3 _) hk (her_unmarshal_keys hw) hc (her_unmarshal_canon hw)⟩

/-- So does every parsed value, if its strings and keys are UTF-8. -/
theorem C85_parsed (E : Env) (S : SortFn) (d : Opt) (s : Bytes) (v : V) (opts : List MOpt) (hS : GoodSort S) (h : goUnmarshal E s = .ok (s, v, none))
    (hu : Her Utf8Node v)
    (hi : BlankIndent (combineOptions d opts).indent) (ho : (combineOptions d opts).omitNull = false) :
    ∃ b w, marshal E S d v opts = .ok (b, none) ∧ goUnmarshal E b = .ok (b, w, none) ∧ Identical v w := by
  have hun := (goUnmarshal_ok.1 h).2
  exact C85_canonical E S d v opts hS (her_unmarshal_keys hun) (portable_parsed hun hu) (her_unmarshal_canon hun) hi ho

-- the hypotheses: strings in UTF-8, numbers in odd spellings, a repeated key
example : ∃ v, goUnmarshal sampleEnv (asc "{\"b\":[1.50,-0,1E2,\"x\"],\"a\":null,\"b\":[-0.0]}") = .ok (asc "{\"b\":[1.50,-0,1E2,\"x\"],\"a\":null,\"b\":[-0.0]}", v, none) ∧ Her Utf8Node v := by
  refine ⟨_, goUnmarshal_ok.2 ⟨rfl, ?_⟩, utf8_toV (E := sampleEnv) (.obj [⟨asc "b", .arr [.num (asc "1.50"), .num (asc "-0"), .num (asc "1E2"), .str (asc "x")]⟩, ⟨asc "a", .null⟩, ⟨asc "b", .arr [.num (asc "-0.0")]⟩]) ?_⟩
  · decide +kernel
  · exact ⟨⟨[0x62], by decide, by decide +kernel⟩, ⟨trivial, trivial, trivial, ⟨[0x78], by decide, by decide +kernel⟩, trivial⟩, ⟨[0x61], by decide, by decide +kernel⟩, trivial,
      ⟨[0x62], by decide, by decide +kernel⟩, ⟨trivial, trivial⟩, trivial⟩

/-- Identical values: the same sequence of changes returns the same on both and leaves identical values, on which every read returns the same. -/
theorem C85_reads (E : Env) (v w : V) (h : Identical v w) (as bs : List Change) (hp : ProgAlike Identical as bs) :
    (changes E v as).2 = (changes E w bs).2 ∧ Identical (changes E v as).1 (changes E w bs).1 ∧ ∀ ps, ReadAlike E false (changes E v as).1 (changes E w bs).1 ps := by
  obtain ⟨h1, h2⟩ := alike_changes (E := E) leafRel_identical hp h
  exact ⟨h2, h1, fun ps => readAlike (alike_get leafRel_identical h1 ps)⟩

/-- Caseless reads return the same too, if the objects of a value have no two keys that are the same in lower case (else the code goes by the order in a Go map). -/
theorem C85_caseless (E : Env) (v w : V) (h : Identical v w) (gv : Her (GoodNode E) v) (gw : Her (GoodNode E) w) (hu : Her (LowUnique E) v) (ps : List Param) :
    ReadAlike E true v w ps ∧ Identical (getC E true v ps).1 (getC E true w ps).1 :=
  have := alike_caseless_get leafRel_identical h gv gw hu ps
  ⟨readAlike this.2, this.1⟩

/-- Marshal with OptDefaultStringSequence writes the same bytes for identical values. -/
theorem C85_text (E : Env) (S S' : SortFn) (v w : V) (opts : List MOpt) (hS : GoodSort S) (hS' : GoodSort S') (hv : Marshalable v) (h : Identical v w)
    (ho : lastSet setsOrder opts .any = .less defaultStringSequence) : marshal E S emptyOptions v opts = marshal E S' emptyOptions w opts :=
  C14_canonical E S S' v w opts hS hS' hv (identical_marshalable h hv) ho (identical_same h)

/-- One round trip is enough: whatever Marshal wrote of a value (with members left out, invalid UTF-8 or special numbers replaced), what Unmarshal reads from it
is a value that further round trips, with any options but OptOmitNull, give back identical. -/
theorem C85_settled (E : Env) (S : SortFn) (d : Opt) (v : V) (opts : List MOpt) (b : Bytes) (hS : GoodSort S) (hv : Marshalable v)
    (hp : Her (Printable E (combineOptions d opts) (Reads E) (fun _ => True)) v) (hi : BlankIndent (combineOptions d opts).indent)
    (h : marshal E S d v opts = .ok (b, none)) :
    ∃ w, goUnmarshal E b = .ok (b, w, none) ∧ ∀ (S' : SortFn) (d' : Opt) (opts' : List MOpt), GoodSort S' → BlankIndent (combineOptions d' opts').indent →
      (combineOptions d' opts').omitNull = false →
      ∃ b' w', marshal E S' d' w opts' = .ok (b', none) ∧ goUnmarshal E b' = .ok (b', w', none) ∧ Identical w w' := by
  obtain ⟨j, h1, h2⟩ := marshal_lenient hS d hv hp hi h
  obtain ⟨b1, t, b2, he, hb1, hl, hb2⟩ := h1
  have hun : unmarshal E b = .ok (toV E j) := (unmarshal_iff E b _).2 ⟨j, ⟨b1, t, b2, he, hb1, lval_mono (fun _ => reads_numTok) hl, hb2⟩, rfl⟩
  have hg := goUnmarshal_ok.2 ⟨rfl, hun⟩
  exact ⟨_, hg, fun S' d' opts' hS' hi' ho' => C85_parsed E S' d' b _ opts' hS' hg (utf8_toV j (shows_texts h2)) hi' ho'⟩

/-- The values of NewInt64 and NewUint64 (and so of NewInt, NewInt32, NewUint, NewUint32, which go through them) are the ones Unmarshal makes of their texts. -/
theorem C85_integers (E : Env) (hE : Ieee E) (i u : BitVec 64) : Canon E (newInt64 E i) ∧ Portable E (newInt64 E i) ∧ Canon E (newUint64 E u) ∧ Portable E (newUint64 E u) :=
  ⟨newInt64_canon hE i, ⟨_, newInt64_canon hE i⟩, newUint64_canon u, ⟨_, newUint64_canon u⟩⟩

-- ... and {"Key":1} has no two keys alike in lower case; a value with numbers of NewInt64 meets the hypotheses of C85_canonical
example (E : Env) (n : V) (h : IsScalar n) : Her (LowUnique E) (.obj 1 [⟨asc "Key", 0, n⟩] none) := by
  refine her_of_kids (fun k k' h1 h2 _ => ?_) fun c hc => ?_
  · simp at h1 h2; rw [h1, h2]
  · have : n = c := by simpa [Kid] using hc
    subst this
    exact her_leaf (by cases n <;> trivial) h
example : Her (Canon (ieeeEnv sampleEnv)) (.arr [newInt64 (ieeeEnv sampleEnv) (-3#64), .str [0xFF]]) := by
  refine her_of_kids trivial fun c hc => ?_
  have : c = newInt64 (ieeeEnv sampleEnv) (-3#64) ∨ c = .str [0xFF] := by simpa [Kid] using hc
  rcases this with rfl | rfl
  · exact her_leaf (newInt64_canon (ieeeEnv_ok _) _) trivial
  · exact her_leaf trivial trivial
example : Identical (.obj 2 [⟨asc "a", 0, .null⟩, ⟨asc "b", 1, .bool true⟩] none) (.obj 7 [⟨asc "b", 3, .bool true⟩, ⟨asc "a", 6, .null⟩] none) := by
  refine .obj _ _ _ _ _ _ (by show List.Nodup _; decide +kernel) (by show List.Nodup _; decide +kernel) (fun k => ?_) fun k c c' h1 h2 => ?_
  · simp only [members, V.child, lookup, Ent.key_mk]
    by_cases h1 : asc "a" = k <;> by_cases h2 : asc "b" = k <;> simp [h1, h2]
  · simp only [members, V.child, lookup, Ent.key_mk] at h1 h2
    by_cases h3 : asc "a" = k <;> by_cases h4 : asc "b" = k
    · rw [← h3] at h4; exact absurd h4 (by decide +kernel)
    · simp [h3, h4] at h1 h2; subst h1 h2; exact .leaf _ _ ⟨trivial, rfl⟩
    · simp [h3, h4] at h1 h2; subst h1 h2; exact .leaf _ _ ⟨trivial, rfl⟩
    · simp [h3, h4] at h1

/-- For values that did not come from a text the round trip need not be identical: NewFloat64(1.5) is no float by IsFloat, what is read back from its text is. -/
def C85_statement : Prop := ∀ (E : Env) (S : SortFn) (v : V) (opts : List MOpt), GoodSort S → Her KeysNodup v → Her (Portable E) v → opts = [] →
  ∃ b w, marshal E S emptyOptions v opts = .ok (b, none) ∧ goUnmarshal E b = .ok (b, w, none) ∧ Identical v w

theorem C85_counterexample : ¬ C85_statement := by
  intro h
  obtain ⟨b, w, h1, h2, h3⟩ := h sampleEnv insertionSort (newFloat64f sampleEnv (asc "1.5") 0x3FF8000000000000#64) [] insertionSort_good
    (her_leaf trivial trivial) (her_leaf ⟨match unmarshal sampleEnv (asc "1.5") with | .ok (.num _ n) => n | _ => default, by decide +kernel⟩ trivial) rfl
  have h4 : marshal sampleEnv insertionSort emptyOptions (newFloat64f sampleEnv (asc "1.5") 0x3FF8000000000000#64) [] = .ok (asc "1.5", none) := by decide +kernel
  rw [h4] at h1
  cases h1
  have h5 : goUnmarshal sampleEnv (asc "1.5") ≠ .ok (asc "1.5", newFloat64f sampleEnv (asc "1.5") 0x3FF8000000000000#64, none) := by decide +kernel
  rcases identical_cases h3 with rfl | ⟨_, _, h, _⟩ | ⟨_, _, _, _, _, _, h, _⟩
  · exact h5 h2
  · cases h
  · cases h

-- the method that tells them apart
example : isFloat (newFloat64f sampleEnv (asc "1.5") 0x3FF8000000000000#64) = .ok false ∧
    (match unmarshal sampleEnv (asc "1.5") with | .ok w => isFloat w | _ => .panic) = .ok true := by decide +kernel

end JV
