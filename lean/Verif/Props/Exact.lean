import Verif.Proofs.ExactMore
import Verif.Props.Marshal
import Verif.Props.Modify
import Verif.Props.Order
/-!
Where a property does not hold for all inputs, exactly for which it does.
-/
namespace JV
open Spec

/-! ### C02 -/

/-- A JSON document is read without error exactly if every number literal in it is one that the parser takes (`NumTaken`). -/
theorem C02_exact (E : Env) (s : Bytes) (j : J) (h : JText s j) : (∃ v, goUnmarshal E s = .ok (s, v, none)) ↔ j.AllNums (NumTaken E) := by
  have h1 : (∃ v, goUnmarshal E s = .ok (s, v, none)) ↔ ∃ v, unmarshal E s = .ok v :=
    ⟨fun ⟨v, hv⟩ => ⟨v, (goUnmarshal_ok.1 hv).2⟩, fun ⟨v, hv⟩ => ⟨v, goUnmarshal_ok.2 ⟨rfl, hv⟩⟩⟩
  rw [h1, jtext_taken E h]
  exact ⟨jtext_nums h fun t ht hn => (jnum_taken ht).1 hn, jtext_nums h fun t ht hn => (jnum_taken ht).2 hn⟩

/-- the number literals it takes and refuses at the limits -/
theorem C02_limits (E : Env) :
    NumTaken E (asc "18446744073709551615") ∧ ¬ NumTaken E (asc "18446744073709551616") ∧
    NumTaken E (asc "-9223372036854775808") ∧ ¬ NumTaken E (asc "-9223372036854775809") := by
  have hd : ∀ {ds : Bytes}, (ds.all fun c => decide (0x30 ≤ c ∧ c ≤ 0x39)) = true → Digits ds := fun {ds} h c hc => by
    have := List.all_eq_true.1 h c hc; simpa [Digit, UInt8.le_iff_toNat_le] using this
  have p1 : JInt false (asc "18446744073709551615") (asc "18446744073709551615") := ⟨.inr ⟨0x31, asc "8446744073709551615", rfl, by decide, by decide, hd (by decide +kernel)⟩, rfl⟩
  have p2 : JInt false (asc "18446744073709551616") (asc "18446744073709551616") := ⟨.inr ⟨0x31, asc "8446744073709551616", rfl, by decide, by decide, hd (by decide +kernel)⟩, rfl⟩
  have p3 : JInt true (asc "9223372036854775808") (asc "-9223372036854775808") := ⟨.inr ⟨0x39, asc "223372036854775808", rfl, by decide, by decide, hd (by decide +kernel)⟩, rfl⟩
  have p4 : JInt true (asc "9223372036854775809") (asc "-9223372036854775809") := ⟨.inr ⟨0x39, asc "223372036854775809", rfl, by decide, by decide, hd (by decide +kernel)⟩, rfl⟩
  rw [← jnum_taken (.inl ⟨_, _, p1⟩), ← jnum_taken (.inl ⟨_, _, p2⟩), ← jnum_taken (.inl ⟨_, _, p3⟩), ← jnum_taken (.inl ⟨_, _, p4⟩),
    jint_tok_iff p1, jint_tok_iff p2, jint_tok_iff p3, jint_tok_iff p4]
  refine ⟨?_, ?_, ?_, ?_⟩ <;> decide +kernel

/-! ### C06 -/

/-- A text of digits, with or without a minus sign, is read without error exactly if it is an integer token (`IntTok`), and then the typed
getters give its value modulo 2^64. -/
theorem C06_exact (E : Env) (neg : Bool) (ds : Bytes) (hd : Digits ds) (hne : ds ≠ []) :
    ((∃ v, goUnmarshal E (sign neg ++ ds) = .ok (sign neg ++ ds, v, none)) ↔ IntTok neg ds) ∧
    ∀ v, goUnmarshal E (sign neg ++ ds) = .ok (sign neg ++ ds, v, none) →
      int64 E v = .ok (BitVec.ofInt 64 (intVal neg ds)) ∧ uint64 E v = .ok (BitVec.ofInt 64 (intVal neg ds)) := by
  refine ⟨⟨fun ⟨v, hv⟩ => (unmarshal_intText hd hne (goUnmarshal_ok.1 hv).2).1, fun h => ?_⟩, fun v hv => ?_⟩
  · have := ((intTok_iff (E := E) neg ds hd).1).2 h
    exact ⟨_, goUnmarshal_ok.2 ⟨rfl, unmarshal_numTok this⟩⟩
  · obtain ⟨-, rfl⟩ := unmarshal_intText hd hne (goUnmarshal_ok.1 hv).2
    cases neg
    · exact ⟨congrArg R.ok (by simp [intNum, intVal, BitVec.ofInt_natCast]), congrArg R.ok (by simp [intNum, intVal, BitVec.ofInt_natCast])⟩
    · exact ⟨rfl, rfl⟩

example : IntTok false (asc "28446744073709551616") ∧ ¬ IntTok false (asc "18446744073709551616") ∧ ¬ IntTok false (asc "01") ∧ IntTok true (asc "01") := by
  have hd : ∀ {ds : Bytes}, (ds.all fun c => decide (0x30 ≤ c ∧ c ≤ 0x39)) = true → Digits ds := fun {ds} h c hc => by
    have := List.all_eq_true.1 h c hc; simpa [Digit, UInt8.le_iff_toNat_le] using this
  refine ⟨⟨hd (by decide +kernel), by decide, ?_⟩, fun h => absurd h.2.2 ?_, fun h => absurd h.2.2 ?_, ⟨hd (by decide +kernel), by decide, ?_⟩⟩
  · simp only [Bool.false_eq_true, if_false]
    exact ⟨by simp [asc], .inr (by decide +kernel)⟩
  · simp only [Bool.false_eq_true, if_false]
    exact fun h => absurd h.2 (by decide +kernel)
  · simp only [Bool.false_eq_true, if_false]
    exact fun h => h.1 0x31 [] rfl
  · simp only [if_true]
    exact ⟨by simp [asc], .inl (by decide)⟩

/-! ### C08, C11 -/

/-- What Marshal writes for a string is JSON exactly if the string does not contain U+000B, whatever the options. -/
theorem C08_literal_exact (E : Env) (S : SortFn) (d : Opt) (opts : List MOpt) (s b : Bytes) (h : marshal E S d (.str s) opts = .ok (b, none)) :
    (∃ j, JText b j) ↔ 0xB ∉ s := by
  constructor
  · rintro ⟨j, hj⟩
    rw [marshal_str] at h
    simp only [R.ok.injEq, Prod.mk.injEq, and_true] at h
    subst h
    have ht : Tok (.leaf (0x22 :: escText (escOf d opts) s ++ [0x22])) := .str _ _ (escText_lenient (escOf_ok d opts) s) (escText_good (escOf_ok d opts) (escOf_vt d opts) s)
    obtain ⟨j', hj'⟩ := (docX_iff (ind := none) trivial ht).1 ⟨j, hj⟩
    exact (escText_iff (escOf_ok d opts) (escOf_vt d opts) s).1 (docX_quoted hj')
  · intro hvt
    obtain ⟨t, ht, -⟩ := C08_literal_partial E S d opts s b hvt h
    exact ⟨_, ht⟩

/-! ### C10, C13 -/

/-- What Marshal writes for a value built by public calls is JSON exactly if (`JsonOK`) no string or key has U+000B, every number has a JSON
text or replacement, and the numbers without any text stand alone in arrays. (The indentation must be white space, OptOmitNull is another
theorem, `hF` is what is assumed about strconv.FormatFloat.) -/
theorem C10_exact (E : Env) (S : SortFn) (d : Opt) (v : V) (opts : List MOpt) (b : Bytes) (hS : GoodSort S) (hF : ∀ f, isValidFloat f = true → JNum (E.jsonFloat f))
    (hv : Built E (ApiScalar E) v) (hi : WsIndent (combineOptions d opts).indent) (ho : (combineOptions d opts).omitNull = false)
    (h : marshal E S d v opts = .ok (b, none)) : (∃ j, JText b j) ↔ JsonOK E (combineOptions d opts) (fun _ _ _ => True) [] v :=
  marshal_exact hS d (api_marshalable hv).1 hF (api_marshalable hv).2 hi (fun _ _ _ _ _ => trivial) (fun _ _ _ _ _ _ _ _ _ => tight_keep ho _) h

/-- With OptOmitNull and OptDefaultStringSequence: in addition, no member left out stands between two others in ascending order of keys. -/
theorem C13_exact_default (E : Env) (S : SortFn) (d : Opt) (v : V) (opts : List MOpt) (b : Bytes) (hS : GoodSort S) (hF : ∀ f, isValidFloat f = true → JNum (E.jsonFloat f))
    (hv : Built E (ApiScalar E) v) (hi : WsIndent (combineOptions d opts).indent) (ho : (combineOptions d opts).lessFunc = some defaultStringSequence)
    (h : marshal E S d v opts = .ok (b, none)) : (∃ j, JText b j) ↔ JsonOK E (combineOptions d opts) (KeyOrder Asc) [] v :=
  exact_keys hS d (api_marshalable hv).1 hF (api_marshalable hv).2 hi asc_asymm (sorted_default hS ho) h

/-- With OptKeySequence: in the order of the listed keys. -/
theorem C13_exact_listed (E : Env) (S : SortFn) (v : V) (opts : List MOpt) (b : Bytes) (seq : List Bytes) (hS : GoodSort S) (hF : ∀ f, isValidFloat f = true → JNum (E.jsonFloat f))
    (hv : Built E (ApiScalar E) v) (hi : WsIndent (combineOptions emptyOptions opts).indent) (ho : lastSet setsOrder opts .any = .keys seq)
    (h : marshal E S emptyOptions v opts = .ok (b, none)) : (∃ j, JText b j) ↔ JsonOK E (combineOptions emptyOptions opts) (KeyOrder (ListedBefore seq)) [] v :=
  exact_keys hS _ (api_marshalable hv).1 hF (api_marshalable hv).2 hi listed_asymm (sorted_seq hS ((set_order opts).trans ho) (set_cache opts)) h

/-- Without an option for the order: in the order in which the map is visited, which is any. -/
theorem C13_exact_unordered (E : Env) (S : SortFn) (v : V) (opts : List MOpt) (b : Bytes) (hS : GoodSort S) (hF : ∀ f, isValidFloat f = true → JNum (E.jsonFloat f))
    (hv : Built E (ApiScalar E) v) (hi : WsIndent (combineOptions emptyOptions opts).indent) (ho : lastSet setsOrder opts .any = .any)
    (h : marshal E S emptyOptions v opts = .ok (b, none)) : (∃ j, JText b j) ↔ JsonOK E (combineOptions emptyOptions opts) AsVisited [] v := by
  have hs : ∀ p kvs, sorted S (optOf emptyOptions opts) p kvs = kvs := fun p kvs => by
    obtain ⟨h1, h2, h3⟩ := orderOf_any ((set_order opts).trans ho)
    rw [sorted_eq, h1]; simp [h2, h3]
  exact marshal_exact hS _ (api_marshalable hv).1 hF (api_marshalable hv).2 hi (fun _ p kvs _ _ => hs p kvs)
    (fun _ p kvs es _ _ _ he ht => by rw [hs]; cases he; exact ht) h

-- NaN alone in an array is written as an empty array
example : JsonOK sampleEnv (combineOptions emptyOptions []) (fun _ _ _ => True) [] (.arr [newFloat64f sampleEnv [] 0x7FF8000000000000#64]) ∧
    marshal sampleEnv insertionSort emptyOptions (.arr [newFloat64f sampleEnv [] 0x7FF8000000000000#64]) [] = .ok (asc "[]", none) := by
  refine ⟨.lone _ _ (.num _ _ .nan _ (by rfl) (.nanErr (by decide) (by decide) (by decide))), by decide +kernel⟩

-- left-out members before and after all the others
example : JsonOK sampleEnv (combineOptions emptyOptions [.omitNull true, .less (some defaultStringSequence)]) (KeyOrder Asc) []
      (.obj 3 [⟨asc "b", 2, .bool true⟩, ⟨asc "c", 3, .null⟩, ⟨asc "a", 1, .null⟩] none) ∧
    marshal sampleEnv insertionSort emptyOptions (.obj 3 [⟨asc "b", 2, .bool true⟩, ⟨asc "c", 3, .null⟩, ⟨asc "a", 1, .null⟩] none) [.omitNull true, .less (some defaultStringSequence)] =
      .ok (asc "{\"b\":true}", none) := by
  refine ⟨.obj _ _ _ _ [⟨asc "a", 1, .null⟩, ⟨asc "b", 2, .bool true⟩, ⟨asc "c", 3, .null⟩] ?_ ?_ ?_ ?_ ?_, by decide +kernel⟩
  · exact (List.perm_append_comm (l₁ := [Ent.mk (asc "a") 1 .null]) (l₂ := [Ent.mk (asc "b") 2 (.bool true), Ent.mk (asc "c") 3 .null]))
  · have h : ∀ a b : UInt8, a < b → Asc [a] [b] := fun a b h => .head _ _ _ _ h
    simp only [KeyOrder, List.pairwise_cons, List.mem_cons, List.not_mem_nil, or_false]
    refine ⟨?_, ?_, by simp, .nil⟩
    · rintro e (rfl | rfl) <;> exact h _ _ (by decide)
    · rintro e rfl; exact h _ _ (by decide)
  · exact ⟨[⟨asc "a", 1, .null⟩], [⟨asc "b", 2, .bool true⟩], [⟨asc "c", 3, .null⟩], rfl, by simp [Omitted, Ent.v]; rfl,
      by simp [Omitted, Ent.v], by simp [Omitted, Ent.v]; rfl⟩
  · intro e he _
    simp only [List.mem_cons, List.not_mem_nil, or_false] at he
    rcases he with rfl | rfl | rfl <;> decide
  · intro e he ho
    simp only [List.mem_cons, List.not_mem_nil, or_false] at he
    rcases he with rfl | rfl | rfl
    · exact .bool _ _
    · exact .null _
    · exact .null _

/-! ### C19 -/

/-- After a Set that reports no error, Get at the same path finds the place where the child was put exactly if no index before the last
parameter skips over the end of an existing array. -/
theorem C19_exact (E : Env) (v v' : V) (ch : Ch) (ps : List Param) (l : List Step) (h : set E v ch ps = (v', .ok l)) : Addr v' ps l ↔ ¬ Skips v ps := by
  by_cases hne : ps = []
  · subst hne; unfold set at h; cases hc : ch.err <;> simp [hc, setAt] at h
  · rcases set_spec E v ch ps hne with ⟨m, h1, -, h2⟩ | ⟨e, h1⟩
    · rw [h] at h1 h2; cases h1
      exact ⟨setsTo_addr_conv h2, setsTo_addr h2⟩
    · rw [h] at h1; cases h1

example : set sampleEnv (.arr []) { c := .bool true } [.int 5, .str (asc "a")] =
    (.arr [.obj 1 [⟨asc "a", 1, .bool true⟩] none], .ok [.idx 0, .key (asc "a")]) ∧ Skips (.arr []) [.int 5, .str (asc "a")] :=
  ⟨by decide +kernel, .here _ _ 5 _ _ (by decide +kernel) (by decide) (by decide)⟩

/-! ### C28 -/

theorem resolve_slice_last (E : Env) (cl : Bool) (q : Param) (qs : List Param) : ∀ (pre : List Param) (v : V),
    resolve E cl v (pre ++ [.slice (q :: qs)]) = resolve E cl v (pre ++ q :: qs)
  | [], v => by rw [List.nil_append, List.nil_append, resolve_one, resolve1_slice]
  | p :: pre, v => by
    obtain ⟨a, as, ha⟩ : ∃ a as, pre ++ [.slice (q :: qs)] = a :: as := by cases pre <;> simp
    obtain ⟨b, bs, hb⟩ : ∃ b bs, pre ++ q :: qs = b :: bs := by cases pre <;> simp
    have ih := resolve_slice_last E cl q qs pre
    rw [ha, hb] at ih
    rw [List.cons_append, List.cons_append, ha, hb]
    by_cases hp : p.isSlice = true
    · rw [resolve_cons_slice _ _ _ _ _ _ hp, resolve_cons_slice _ _ _ _ _ _ hp]
    · have hp : p.isSlice = false := by simpa using hp
      rw [resolve_cons _ _ _ _ _ _ hp, resolve_cons _ _ _ _ _ _ hp]
      simp only [ih]

/-- A slice at the end of a path means its elements, wherever the path comes to before it (Get and all typed getters, plain and caseless). -/
theorem C28_get_last (E : Env) (cl : Bool) (v : V) (pre : List Param) (q : Param) (qs : List Param) : getC E cl v (pre ++ [.slice (q :: qs)]) = getC E cl v (pre ++ q :: qs) := by
  unfold getC
  rw [resolve_slice_last]

/-- The exception to the last clause, exactly: in the last place but one, and not in the first, a slice means its elements for Delete and Insert. -/
theorem C28_last_but_one (E : Env) (v : V) (p : Param) (pre : List Param) (q : Param) (qs : List Param) (r : Param) (hp : p.isSlice = false) :
    (∀ cl, delete E cl v (p :: pre ++ [.slice (q :: qs), r]) = delete E cl v (p :: pre ++ q :: qs ++ [r])) ∧
    (∀ after ch, insert E after v ch (p :: pre ++ [.slice (q :: qs), r]) = insert E after v ch (p :: pre ++ q :: qs ++ [r])) := by
  have e1 : p :: pre ++ [.slice (q :: qs), r] = (p :: (pre ++ [.slice (q :: qs)])) ++ [r] := by simp
  have e2 : p :: pre ++ q :: qs ++ [r] = (p :: (pre ++ q :: qs)) ++ [r] := by simp
  have hr : ∀ cl, resolve E cl v (p :: (pre ++ [.slice (q :: qs)])) = resolve E cl v (p :: (pre ++ q :: qs)) := fun cl => resolve_slice_last E cl q qs (p :: pre) v
  rw [e1, e2]
  constructor
  · intro cl
    unfold delete
    rw [deleteAt_pre, deleteAt_pre, List.nil_append, List.nil_append, deleteAt_last', deleteAt_last', hr]
  · intro after ch
    unfold insert
    have hl : locArray E v (p :: (pre ++ [.slice (q :: qs)])) = locArray E v (p :: (pre ++ q :: qs)) := by unfold locArray; rw [hr]
    rw [insertAt_pre, insertAt_pre, List.nil_append, List.nil_append, insertAt_last, insertAt_last]
    cases v <;> simp only [hl]

theorem resolve_slice_more (E : Env) (cl : Bool) (qs : List Param) (r : Param) (rs : List Param) : ∀ (pre : List Param) (v : V) (l : List Step),
    (resolve E cl v (pre ++ .slice qs :: r :: rs)).2 ≠ .ok l
  | [], v, l => by rw [List.nil_append, resolve_cons_slice _ _ _ _ _ _ rfl]; exact (nomatch ·)
  | p :: pre, v, l => by
    obtain ⟨a, as, ha⟩ : ∃ a as, pre ++ .slice qs :: r :: rs = a :: as := by cases pre <;> simp
    have ih := resolve_slice_more E cl qs r rs pre
    rw [ha] at ih
    rw [List.cons_append, ha]
    by_cases hp : p.isSlice = true
    · rw [resolve_cons_slice _ _ _ _ _ _ hp]; exact (nomatch ·)
    · have hp : p.isSlice = false := by simpa using hp
      rw [resolve_cons _ _ _ _ _ _ hp]
      split
      · rename_i s _
        split
        · exact (nomatch ·)
        · rename_i c _
          intro h
          have ih := ih c
          generalize (resolve E cl c (a :: as)).2 = x at h ih
          cases x with
          | ok m => exact ih m rfl
          | err e => cases h
          | panic => cases h
          | diverge => cases h
      · exact (nomatch ·)
      · exact (nomatch ·)
      · exact (nomatch ·)

/-- Further away from the end it is an error for all of them. -/
theorem C28_two_more (E : Env) (v : V) (ch : Ch) (after cl : Bool) (pre qs : List Param) (r r' : Param) (rs : List Param) :
    (∀ l, (insert E after v ch (pre ++ .slice qs :: r :: r' :: rs)).2 ≠ .ok l) ∧ (delete E cl v (pre ++ .slice qs :: r :: r' :: rs)).2 ≠ .ok () := by
  obtain ⟨ts, t, ht⟩ : ∃ ts t, r' :: rs = ts ++ [t] := ⟨(r' :: rs).dropLast, (r' :: rs).getLast (by simp), (List.dropLast_concat_getLast (by simp)).symm⟩
  have hps : pre ++ .slice qs :: r :: r' :: rs = (pre ++ .slice qs :: r :: ts) ++ [t] := by rw [ht]; simp
  have hno := fun cl => resolve_slice_more E cl qs r ts pre v
  obtain ⟨a, as, ha⟩ : ∃ a as, pre ++ .slice qs :: r :: ts = a :: as := by cases pre <;> simp
  rw [ha] at hno hps
  rw [hps]
  constructor
  · intro l h
    unfold insert at h
    rw [insertAt_pre, List.nil_append, insertAt_last] at h
    have hl : ∀ m, locArray E v (a :: as) ≠ .ok m := by
      intro m hm
      unfold locArray at hm
      have := hno false
      generalize (resolve E false v (a :: as)).2 = x at hm this
      cases x with
      | ok k => exact this k rfl
      | err e => cases hm
      | panic => cases hm
      | diverge => cases hm
    generalize hx : locArray E v (a :: as) = x at hl
    split at h
    · cases h
    · split at h
      · cases h
      · cases v <;> first
          | (cases after <;> cases h; done)
          | (cases h; done)
          | (simp only [hx] at h
             cases x with
             | ok k => exact hl k rfl
             | err e => cases h
             | panic => cases h
             | diverge => cases h)
  · intro h
    unfold delete at h
    rw [deleteAt_pre, List.nil_append, deleteAt_last'] at h
    have hno := hno cl
    generalize (resolve E cl v (a :: as)).2 = x at h hno
    split at h
    · cases h
    · cases x with
      | ok k => exact hno k rfl
      | err e => cases h
      | panic => cases h
      | diverge => cases h

example : delete sampleEnv false sampleDoc [.str (asc "a"), .slice [.int 1], .str (asc "b")] = delete sampleEnv false sampleDoc [.str (asc "a"), .int 1, .str (asc "b")] :=
  (C28_last_but_one sampleEnv sampleDoc (.str (asc "a")) [] (.int 1) [] (.str (asc "b")) rfl).1 false

/-! ### C29 -/

/-- An unsigned index of 2^63 or more counts from the end, like the negative number of the same bits. -/
theorem C29_unsigned_wraps (E : Env) (xs : List V) (u : BitVec 64) (hu : 2 ^ 63 ≤ u.toNat) :
    get E (.arr xs) [.uint u] = get E (.arr xs) [.int u] ∧
    (2 ^ 64 ≤ xs.length + u.toNat → get E (.arr xs) [.uint u] = (match xs[xs.length + u.toNat - 2 ^ 64]? with | some c => .ok c | none => .panic)) ∧
    (xs.length + u.toNat < 2 ^ 64 → get E (.arr xs) [.uint u] = .err .outOfRange) := by
  have hlt := u.isLt
  have hz : u.toInt = (u.toNat : Int) - 2 ^ 64 := by rw [BitVec.toInt_eq_toNat_cond]; rw [if_neg (by omega)]; rfl
  have he : get E (.arr xs) [.uint u] = get E (.arr xs) [.int u] := by
    unfold get getC fetch
    rw [resolve_one, resolve_one, resolve1_nonslice _ _ _ _ rfl, resolve1_nonslice _ _ _ _ rfl, locate_arr, locate_arr]
    rfl
  have hi := C29_index_partial E xs (.int u) u.toInt (.inl ⟨u, rfl, rfl⟩)
  refine ⟨he, fun h => ?_, fun h => ?_⟩
  · rw [he, hi.2.1 (by omega) (by omega), show ((xs.length : Int) + u.toInt).toNat = xs.length + u.toNat - 2 ^ 64 by omega]
    rfl
  · rw [he, hi.2.2 (.inr (by omega))]

example : get sampleEnv (.arr [.null, .bool true]) [.uint (BitVec.ofNat 64 (2 ^ 64 - 2))] = .ok .null ∧
    get sampleEnv (.arr [.null, .bool true]) [.uint (BitVec.ofNat 64 (2 ^ 64 - 3))] = .err .outOfRange := by decide +kernel

end JV
