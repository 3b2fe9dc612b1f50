import Verif.Proofs.Reformat
import Verif.Props.Parsing
/-!
C68: a document that is read and written again.
-/
namespace JV
open Spec

/-- there is exactly one such function for every list of options -/
theorem C68_escaped_by (opts : List MOpt) : ∃ esc, EscapedBy opts esc ∧ ∀ esc', EscapedBy opts esc' → esc' = esc := by
  refine ⟨escText (escOf emptyOptions opts), escapedBy_of opts, fun esc' h => ?_⟩
  exact escapedBy_eq h

/-- Reading any accepted document and writing it with OptSetSequence and without OptOmitNull writes the same document: the same numbers digit
for digit, the same strings, the same elements and members in their order, where of several members with one key the last stands. Only
white space and the escapes in strings are those of the options. -/
theorem C68_reformat (E : Env) (S : SortFn) (s : Bytes) (j : J) (opts : List MOpt) (esc : Bytes → Bytes) (hS : GoodSort S) (h : LText (Reads E) s j) (hn : j.Narrow)
    (ho : Keeps opts) (he : EscapedBy opts esc) :
    ∃ v, goUnmarshal E s = .ok (s, v, none) ∧ marshal E S emptyOptions v opts = .ok ((j.uniq.doc esc).print (lastSet setsIndent opts none) 0, none) :=
  ⟨_, goUnmarshal_ok.2 ⟨rfl, reads_toV h⟩, marshal_uniq hS hn (ltext_nums h) ho.1 ho.2 he (reads_toV h)⟩

/-- The same for standard JSON, which is always accepted (under the conditions of C02). -/
theorem C68_standard (E : Env) (S : SortFn) (s : Bytes) (j : J) (opts : List MOpt) (esc : Bytes → Bytes) (hS : GoodSort S) (h : JText s j)
    (hr : j.AllNums fun t => InRange E t ∧ ∀ neg ip, JFloat neg ip t → ZerosOK ip) (hn : j.Narrow) (ho : Keeps opts) (he : EscapedBy opts esc) :
    ∃ v, goUnmarshal E s = .ok (s, v, none) ∧ marshal E S emptyOptions v opts = .ok ((j.uniq.doc esc).print (lastSet setsIndent opts none) 0, none) := by
  have hok : j.AllNums (NumOK E) := AllNums_mono (fun t ht => ⟨ht.1.1, fun neg ip hf => ⟨ht.1.2 neg ip hf, ht.2 neg ip hf⟩⟩) j hr
  obtain ⟨b1, t, b2, h1, h2, h3, h4⟩ := strict_text E h hok
  exact C68_reformat E S s j opts esc hS ⟨b1, t, b2, h1, h2, lval_mono (fun _ => numTok_reads) h3, h4⟩ hn ho he

/-- A document that is written this way is read as that same document again, so that what was written is unchanged when it is read and
written once more, and one more rewriting with other options gives what these options would have given at first. -/
theorem C68_rewrite (E : Env) (S S' : SortFn) (s : Bytes) (j : J) (opts opts' : List MOpt) (hS : GoodSort S) (hS' : GoodSort S') (h : LText (Reads E) s j) (hn : j.Narrow)
    (hu : j.Texts ValidUTF8) (ho : Keeps opts) (ho' : Keeps opts') (hi : BlankIndent (lastSet setsIndent opts none)) :
    ∃ v b w, goUnmarshal E s = .ok (s, v, none) ∧ marshal E S emptyOptions v opts = .ok (b, none) ∧ goUnmarshal E b = .ok (b, w, none) ∧ LText (Reads E) b j.uniq ∧
      marshal E S' emptyOptions w opts' = marshal E S' emptyOptions v opts' := by
  have hN := ltext_nums h
  have hs := escapedBy_of opts
  have hs' := escapedBy_of opts'
  have hb : LText (Reads E) ((j.uniq.doc (escText (escOf emptyOptions opts))).print (lastSet setsIndent opts none) 0) j.uniq :=
    ⟨[], _, [], by simp, Blank_nil, docJ_lenient hi (doc_spells (esc := escText (escOf emptyOptions opts)) (P := ValidUTF8) (fun s hv => by
      have := escText_lenient (escOf_ok emptyOptions opts) s
      rwa [cleaned_valid hv ⟨_, Decodes_runes s, rfl⟩] at this) (fun _ => trivial) j.uniq (uniq_nums j hN) (uniq_texts j hu)) 0, Blank_nil⟩
  refine ⟨_, _, _, goUnmarshal_ok.2 ⟨rfl, reads_toV h⟩, marshal_uniq hS hn hN ho.1 ho.2 hs (reads_toV h), goUnmarshal_ok.2 ⟨rfl, reads_toV hb⟩, hb, ?_⟩
  rw [marshal_uniq hS' hn hN ho'.1 ho'.2 hs' (reads_toV h), marshal_uniq hS' (uniq_narrow j hn) (uniq_nums j hN) ho'.1 ho'.2 hs' (reads_toV hb), uniq_idem]

/-- Read and write twice with the same options is read and write once. -/
theorem C68_idempotent (E : Env) (S : SortFn) (s : Bytes) (j : J) (opts : List MOpt) (hS : GoodSort S) (h : LText (Reads E) s j) (hn : j.Narrow) (hu : j.Texts ValidUTF8)
    (ho : Keeps opts) (hi : BlankIndent (lastSet setsIndent opts none)) :
    ∃ v b w, goUnmarshal E s = .ok (s, v, none) ∧ marshal E S emptyOptions v opts = .ok (b, none) ∧ goUnmarshal E b = .ok (b, w, none) ∧
      marshal E S emptyOptions w opts = .ok (b, none) := by
  obtain ⟨v, b, w, h1, h2, h3, -, h4⟩ := C68_rewrite E S S s j opts opts hS hS h hn hu ho ho hi
  exact ⟨v, b, w, h1, h2, h3, h4.trans h2⟩

/-- A document without repeated keys, written compactly with the escapes of the options, comes out byte for byte. -/
theorem C68_unchanged (E : Env) (S : SortFn) (j : J) (opts : List MOpt) (esc : Bytes → Bytes) (hS : GoodSort S) (hN : j.AllNums (Reads E)) (hn : j.Narrow) (hu : j.Texts ValidUTF8)
    (hd : j.uniq = j) (ho : Keeps opts) (hi : BlankIndent (lastSet setsIndent opts none)) (he : EscapedBy opts esc) :
    ∃ v, goUnmarshal E ((j.doc esc).print (lastSet setsIndent opts none) 0) = .ok ((j.doc esc).print (lastSet setsIndent opts none) 0, v, none) ∧
      marshal E S emptyOptions v opts = .ok ((j.doc esc).print (lastSet setsIndent opts none) 0, none) := by
  rw [escapedBy_eq he]
  have hb : LText (Reads E) ((j.doc (escText (escOf emptyOptions opts))).print (lastSet setsIndent opts none) 0) j :=
    ⟨[], _, [], by simp, Blank_nil, docJ_lenient hi (doc_spells (esc := escText (escOf emptyOptions opts)) (P := ValidUTF8) (fun s hv => by
      have := escText_lenient (escOf_ok emptyOptions opts) s
      rwa [cleaned_valid hv ⟨_, Decodes_runes s, rfl⟩] at this) (fun _ => trivial) j hN hu) 0, Blank_nil⟩
  have := marshal_uniq hS hn hN ho.1 ho.2 (escapedBy_of opts) (reads_toV hb)
  rw [hd] at this
  exact ⟨_, goUnmarshal_ok.2 ⟨rfl, reads_toV hb⟩, this⟩

-- a document with a repeated key: 1.50 stays 1.50, the first member "a" goes
example : ∃ v, goUnmarshal sampleEnv (asc " {\"a\" : 1, \"c\":[ ], \"a\":{\"b\":1.50} }") = .ok (asc " {\"a\" : 1, \"c\":[ ], \"a\":{\"b\":1.50} }", v, none) ∧
    marshal sampleEnv insertionSort emptyOptions v [.setSeq, .indent [] (asc " ")] = .ok (asc "{\n \"c\": [],\n \"a\": {\n  \"b\": 1.50\n }\n}", none) := by
  refine ⟨(match unmarshal sampleEnv (asc " {\"a\" : 1, \"c\":[ ], \"a\":{\"b\":1.50} }") with | .ok v => v | _ => .nilp), ?_, ?_⟩ <;> decide +kernel
example : Keeps [.setSeq, .indent [] (asc " ")] ∧ ¬ Keeps [] ∧ ¬ Keeps [.setSeq, .omitNull true] := ⟨⟨rfl, rfl⟩, fun h => (nomatch h.1), fun h => (nomatch h.2)⟩
/-- the document of that text, and what is written -/
def reformatSample : J := .obj [⟨asc "a", .num (asc "1")⟩, ⟨asc "c", .arr []⟩, ⟨asc "a", .obj [⟨asc "b", .num (asc "1.50")⟩]⟩]
example : reformatSample.uniq = .obj [⟨asc "c", .arr []⟩, ⟨asc "a", .obj [⟨asc "b", .num (asc "1.50")⟩]⟩] := by
  simp [reformatSample, J.uniq, uniqM, uniqL, asc, Mem.key]
example : reformatSample.Narrow := by simp [reformatSample, J.Narrow, NarrowM, NarrowL]
example : reformatSample.AllNums (Reads sampleEnv) :=
  ⟨⟨match unmarshal sampleEnv (asc "1") with | .ok (.num _ n) => n | _ => default, by decide +kernel⟩, trivial,
    ⟨⟨match unmarshal sampleEnv (asc "1.50") with | .ok (.num _ n) => n | _ => default, by decide +kernel⟩, trivial⟩, trivial⟩
example : reformatSample.Texts ValidUTF8 :=
  ⟨⟨[0x61], by decide, by decide +kernel⟩, trivial, ⟨[0x63], by decide, by decide +kernel⟩, trivial, ⟨[0x61], by decide, by decide +kernel⟩,
    ⟨⟨[0x62], by decide, by decide +kernel⟩, trivial, trivial⟩, trivial⟩

end JV
