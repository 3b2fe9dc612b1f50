import Verif.Proofs.SetSeq
import Verif.Props.Marshal
import Verif.Model.Iterate
/-!
C14, C15, C16, C17, C42, C48, C49, C50: the order of members, combination of options, iteration and sorting.

`S` is the behaviour of sort.Sort and sort.Slice. `setDefault ds` is the default after SetDefaultMarshalOptions(ds...); `emptyOptions` the default
before any such call.
-/
namespace JV
open Spec

/-! ### C14 -/

/-- The bytes with OptDefaultStringSequence are a function of the contents: the same for two values with the same contents, whatever the order
in which the members were set or the maps are iterated, and for any two correct sorting algorithms. -/
theorem C14_canonical (E : Env) (S S' : SortFn) (v w : V) (opts : List MOpt) (hS : GoodSort S) (hS' : GoodSort S') (hv : Marshalable v) (hw : Marshalable w)
    (ho : lastSet setsOrder opts .any = .less defaultStringSequence) (h : Same v w) : marshal E S emptyOptions v opts = marshal E S' emptyOptions w opts :=
  marshal_same hS hS' (fun _ _ => asc_asymm) (fun _ hS => sorted_default hS (orderOf_less ((set_order opts).trans ho))) hv hw h

/-- ... with the members of every object in ascending order of their keys. -/
theorem C14_ascending (E : Env) (S : SortFn) (v : V) (opts : List MOpt) (b : Bytes) (hS : GoodSort S) (hv : Marshalable v)
    (ho : lastSet setsOrder opts .any = .less defaultStringSequence) (h : marshal E S emptyOptions v opts = .ok (b, none)) :
    ∃ t, Lays (combineOptions emptyOptions opts) (KeyOrder Asc) (Escaped (lastSet setsUTF8 opts false) (lastSet setsHTML opts true) (lastSet setsSlash opts true)) [] v t ∧
      b = t.print (lastSet setsIndent opts none) 0 :=
  marshal_lays hS hv (fun _ par _ kvs _ _ hn _ => sorted_default hS (orderOf_less ((set_order opts).trans ho)) par kvs hn) h

/-- Iterating the maps in another order does not change the contents. -/
theorem C14_reorder_same (v w : V) (hv : KeysNodup v) (hr : Reorder v w) : Same v w := by
  cases hr with
  | mk n kvs kvs' low low' hp hl =>
    have hn : (keys kvs).Nodup := hv
    have hk : ∀ k, members (.obj n kvs low) k = members (.obj n kvs' low') k := fun k => by
      show (lookup k kvs).map Ent.v = (lookup k kvs').map Ent.v
      rw [lookup_perm hn hp.symm]
    exact .obj _ _ _ _ _ _ (fun k => by rw [hk]) fun k c c' h1 h2 => by rw [hk, h2] at h1; cases h1; exact same_refl _

-- two histories, opposite orders of setting and storage, the same contents
example : Same (.obj 2 [⟨asc "b", 1, .null⟩, ⟨asc "a", 2, .bool true⟩] none) (.obj 5 [⟨asc "a", 4, .bool true⟩, ⟨asc "b", 5, .null⟩] none) := by
  have e1 : ∀ k, members (.obj 2 [⟨asc "b", 1, .null⟩, ⟨asc "a", 2, .bool true⟩] none) k = if k = asc "b" then some .null else if k = asc "a" then some (.bool true) else none := by
    intro k; simp only [members, V.child, lookup, Ent.key, Ent.v]
    by_cases h1 : k = asc "b"
    · subst h1; decide
    · by_cases h2 : k = asc "a"
      · subst h2; decide
      · simp [h1, h2, Ne.symm h1, Ne.symm h2]
  have e2 : ∀ k, members (.obj 5 [⟨asc "a", 4, .bool true⟩, ⟨asc "b", 5, .null⟩] none) k = if k = asc "b" then some .null else if k = asc "a" then some (.bool true) else none := by
    intro k; simp only [members, V.child, lookup, Ent.key, Ent.v]
    by_cases h1 : k = asc "b"
    · subst h1; decide
    · by_cases h2 : k = asc "a"
      · subst h2; decide
      · simp [h1, h2, Ne.symm h1, Ne.symm h2]
  refine .obj _ _ _ _ _ _ (fun k => by rw [e1, e2]) fun k c c' h1 h2 => ?_
  rw [e1] at h1; rw [e2, h1] at h2; cases h2
  split at h1
  · cases h1; exact .scalar _ trivial
  · split at h1
    · cases h1; exact .scalar _ trivial
    · cases h1
example : marshal sampleEnv insertionSort emptyOptions (.obj 2 [⟨asc "b", 1, .null⟩, ⟨asc "a", 2, .bool true⟩] none) [.less (some defaultStringSequence)] = .ok (asc "{\"a\":true,\"b\":null}", none) := by
  decide +kernel
example : GoodSort insertionSort := insertionSort_good

/-! ### C15 -/

/-- With OptKeySequence(seq) as the last key order option, `seq` not empty: the members of every object appear in the order `ListedBefore seq`. -/
theorem C15_listed_first_partial (E : Env) (S : SortFn) (v : V) (opts : List MOpt) (seq : List Bytes) (b : Bytes) (hS : GoodSort S) (hv : Marshalable v)
    (ho : lastSet setsOrder opts .any = .keys seq) (h : marshal E S emptyOptions v opts = .ok (b, none)) :
    ∃ t, Lays (combineOptions emptyOptions opts) (KeyOrder (ListedBefore seq)) (Escaped (lastSet setsUTF8 opts false) (lastSet setsHTML opts true) (lastSet setsSlash opts true)) [] v t ∧
      b = t.print (lastSet setsIndent opts none) 0 :=
  marshal_lays hS hv (fun _ par _ kvs _ _ hn _ => sorted_seq hS ((set_order opts).trans ho) (set_cache opts) par kvs hn) h

/-- The bytes depend on the contents and the sequence only. -/
theorem C15_canonical_partial (E : Env) (S S' : SortFn) (v w : V) (opts : List MOpt) (seq : List Bytes) (hS : GoodSort S) (hS' : GoodSort S') (hv : Marshalable v) (hw : Marshalable w)
    (ho : lastSet setsOrder opts .any = .keys seq) (h : Same v w) : marshal E S emptyOptions v opts = marshal E S' emptyOptions w opts :=
  marshal_same hS hS' (fun _ _ => listed_asymm) (fun _ hS => sorted_seq hS ((set_order opts).trans ho) (set_cache opts)) hv hw h

/-- an empty sequence is the same as none: the order is that of the map iteration -/
theorem C15_empty_is_none (E : Env) (S : SortFn) (v : V) : marshal E S emptyOptions v [.keySeq []] = marshal E S emptyOptions v [] :=
  marshal_agree (settings_agree ⟨rfl, rfl, rfl, rfl, rfl, rfl, rfl, rfl, rfl, rfl, rfl, rfl⟩) E S v

/-- C15 for the empty sequence as well: the "others" would have to be sorted. False. -/
def C15_empty_statement : Prop := ∀ (E : Env) (S : SortFn) (v w : V), GoodSort S → Marshalable v → Marshalable w → Reorder v w →
  marshal E S emptyOptions v [.keySeq []] = marshal E S emptyOptions w [.keySeq []]
theorem C15_empty_counterexample : ¬ C15_empty_statement := by
  intro h
  have hm : ∀ {n x y}, Marshalable (.obj n [⟨asc x, 1, .null⟩, ⟨asc y, 2, .null⟩] none) ∨ asc x = asc y := by
    intro n x y
    by_cases hxy : asc x = asc y
    · exact .inr hxy
    · refine .inl ⟨?_, ?_, by simp⟩
      · refine her_of_kids (by simpa [KeysNodup, Ent.key] using hxy) ?_
        rintro c ⟨e, he, rfl⟩
        simp at he
        rcases he with rfl | rfl <;> exact her_leaf trivial trivial
      · refine noNil_her (her_of_kids (by simp) ?_)
        rintro c ⟨e, he, rfl⟩
        simp at he
        rcases he with rfl | rfl <;> exact her_leaf (by simp [Ent.v]) trivial
  have := h sampleEnv insertionSort (.obj 2 [⟨asc "a", 1, .null⟩, ⟨asc "b", 2, .null⟩] none) (.obj 2 [⟨asc "b", 2, .null⟩, ⟨asc "a", 1, .null⟩] none) insertionSort_good
    (hm.resolve_right (by decide)) ?_ (.mk _ _ _ _ _ (.swap _ _ _) trivial)
  · revert this; decide +kernel
  · refine ⟨?_, ?_, by simp⟩
    · refine her_of_kids (by simp [KeysNodup, Ent.key, asc]) ?_
      rintro c ⟨e, he, rfl⟩
      simp at he
      rcases he with rfl | rfl <;> exact her_leaf trivial trivial
    · refine noNil_her (her_of_kids (by simp) ?_)
      rintro c ⟨e, he, rfl⟩
      simp at he
      rcases he with rfl | rfl <;> exact her_leaf (by simp [Ent.v]) trivial

-- listed keys first, the last position of a repeated one counting, then the others
example : marshal sampleEnv insertionSort emptyOptions (.obj 4 [⟨asc "d", 1, .null⟩, ⟨asc "a", 2, .null⟩, ⟨asc "y", 3, .null⟩, ⟨asc "x", 4, .null⟩] none) [.setSeq, .keySeq [asc "x", asc "y", asc "q", asc "x"]] =
    .ok (asc "{\"y\":null,\"x\":null,\"a\":null,\"d\":null}", none) := by decide +kernel
example : lastSet setsOrder [.setSeq, .keySeq [asc "x", asc "y"]] .any = .keys [asc "x", asc "y"] := rfl

/-! ### C16 -/

/-- With OptSetSequence as the last key order option, the members of every object made by NewObject() and any history of Set, Delete, caseless
Delete and reads appear in the order in which they were last set — as long as Set is called less than 2^32 times on the object. -/
theorem C16_set_sequence_partial (E : Env) (S : SortFn) (v : V) (opts : List MOpt) (b : Bytes) (hS : GoodSort S) (hv : Marshalable v)
    (ho : lastSet setsOrder opts .any = .bySet) (h : marshal E S emptyOptions v opts = .ok (b, none)) :
    ∃ t, Lays (combineOptions emptyOptions opts) (InSetOrder E v) (Escaped (lastSet setsUTF8 opts false) (lastSet setsHTML opts true) (lastSet setsSlash opts true)) [] v t ∧
      b = t.print (lastSet setsIndent opts none) 0 := by
  refine marshal_lays hS hv (fun l par n kvs low hl hn _ => ?_) h
  intro w ops hw hr hc
  rw [hl] at hw; cases hw
  obtain ⟨n', kvs', low', es, he, h1, h2⟩ := objRun_seq hr 0 [] none [] rfl new_good seqd_new (by simpa using hc)
  cases he
  rw [sorted_bySet hS ((set_order opts).trans ho) hn h1]
  exact h2

/-- RangeObjectsBySetSequence calls the callback in that order, on every member, until it returns false. -/
theorem C16_range_partial (E : Env) (S : SortFn) (hS : GoodSort S) (ops : List ObjOp) (w : V) (hr : ObjRun E newObject ops w) (hc : setCount ops < 2 ^ 32) :
    ∃ L, SeqRun E [] ops L ∧ ∀ (σ : Type) (f : Callback σ Bytes) (s : σ), ∃ s', rangeObjectsBySet S w (some f) s = .ok s' ∧ Visits f L s s' := by
  obtain ⟨n, kvs, low, es, rfl, h1, h2⟩ := objRun_seq hr 0 [] none [] rfl new_good seqd_new (by simpa using hc)
  refine ⟨pairs es, h2, fun σ f s => ⟨visit f (pairs es) s, ?_, (visit_visits f _ _ _).1 rfl⟩⟩
  have : sortBy S (fun a b : Ent => decide (a.id ≤ b.id)) kvs = es := sort_ids hS h1 fun a b _ _ hab => by
    have : a.id.toNat ≠ b.id.toNat := fun h' => hab (BitVec.eq_of_toNat_eq h')
    simp only [BitVec.le_def, decide_eq_decide]
    omega
  show R.ok (visit f ((sortBy S (fun a b : Ent => decide (a.id ≤ b.id)) kvs).map fun e => (e.key, e.v)) s) = _
  rw [this]; rfl

/-- A parsed value is what setting the members of each object one by one in the order of the text would build. -/
theorem C16_parsed (E : Env) (s : Bytes) (v : V) (h : unmarshal E s = .ok v) : ∃ j, LText (NumTok E) s j ∧ SetInOrder E j v := by
  obtain ⟨j, h1, rfl⟩ := (unmarshal_iff E s v).1 h
  exact ⟨j, h1, toV_setInOrder E j⟩

/-- ... so an object of less than 2^32 members in the text is visited in text order, a repeated key at its last occurrence. -/
theorem C16_parsed_range_partial (E : Env) (S : SortFn) (hS : GoodSort S) (s : Bytes) (v : V) (ms : List Mem) (h : unmarshal E s = .ok v) (hj : LText (NumTok E) s (.obj ms)) (hl : ms.length < 2 ^ 32) :
    ∃ ws : List V, ws.length = ms.length ∧ (∀ (i : Nat) m w, ms[i]? = some m → ws[i]? = some w → SetInOrder E m.v w) ∧
      ∀ (σ : Type) (f : Callback σ Bytes) (s : σ), ∃ s', rangeObjectsBySet S v (some f) s = .ok s' ∧ Visits f (lastOnes ((ms.map Mem.key).zip ws)) s s' := by
  have he := (unmarshal_iff E s _).2 ⟨_, hj, rfl⟩
  rw [h] at he
  cases he
  refine ⟨ms.map fun m => toV E m.v, by simp, ?_, ?_⟩
  · intro i m w hm hw
    rw [List.getElem?_map, hm] at hw; cases hw
    exact toV_setInOrder E m.v
  · have hv : toV E (.obj ms) = ((ms.map Mem.key).zip (ms.map fun m => toV E m.v)).foldl (fun v p => ObjOp.run E v (.set p.1 p.2)) newObject := by
      simp only [toV]; exact toVM_sets E ms {}
    have hr := objRun_foldl E ((ms.map Mem.key).zip (ms.map fun m => toV E m.v)) newObject
    rw [← hv] at hr
    obtain ⟨L, h1, h2⟩ := C16_range_partial E S hS _ _ hr (by rw [setCount_sets]; simpa using hl)
    have := seqRun_sets _ _ _ ?_ h1
    · rw [List.filter_nil, List.nil_append] at this
      rw [← this]; exact h2
    · intro p hp
      obtain ⟨m, -, hm⟩ := List.mem_map.1 (List.of_mem_zip hp).2
      rw [← hm]; exact toV_init E _

/-- C16 for histories of any length. False: see `C16_counterexample`. -/
def C16_statement : Prop := ∀ (E : Env) (S : SortFn) (ops : List ObjOp) (w : V), GoodSort S → ObjRun E newObject ops w →
  ∃ L, SeqRun E [] ops L ∧ ∀ (σ : Type) (f : Callback σ Bytes) (s : σ), ∃ s', rangeObjectsBySet S w (some f) s = .ok s' ∧ Visits f L s s'

/-- The counter has 32 bits: Set("x"), then 2^32 - 1 times Set("a"), and "a" comes first. -/
theorem C16_counterexample : ¬ C16_statement := by
  intro h
  obtain ⟨m, hm⟩ : ∃ m : Nat, m + 2 = 2 ^ 32 := ⟨2 ^ 32 - 2, rfl⟩
  have hw := objRun_foldl sampleEnv ((asc "x", .null) :: List.replicate (m + 1) ([0x61], .null)) newObject
  obtain ⟨L, h1, h2⟩ := h sampleEnv insertionSort _ _ insertionSort_good hw
  have hL := seqRun_sets _ _ _ (by
    intro p hp
    rcases List.mem_cons.1 hp with rfl | hp
    · rfl
    · rw [(List.mem_replicate.1 hp).2]; rfl) h1
  have hlast : lastOnes ((asc "x", V.null) :: List.replicate (m + 1) ([0x61], V.null)) = [(asc "x", .null), ([0x61], .null)] := by
    rw [lastOnes, if_neg, lastOnes_replicate]
    rw [List.map_replicate, List.mem_replicate]
    exact fun h => absurd h.2 (by decide)
  rw [hlast, List.filter_nil, List.nil_append] at hL
  subst hL
  have hv : ((asc "x", V.null) :: List.replicate (m + 1) ([0x61], V.null)).foldl (fun v p => ObjOp.run sampleEnv v (.set p.1 p.2)) newObject =
      .obj 0 [⟨asc "x", 1, .null⟩, ⟨[0x61], 0, .null⟩] none := by
    have e1 : ObjOp.run sampleEnv newObject (.set (asc "x") .null) = .obj 1 [⟨asc "x", 1, .null⟩] none := run_set_ok 0 [] (asc "x") .null rfl
    have e2 : ObjOp.run sampleEnv (.obj 1 [⟨asc "x", 1, .null⟩] none) (.set [0x61] .null) = .obj 2 [⟨asc "x", 1, .null⟩, ⟨[0x61], 2, .null⟩] none := run_set_ok 1 _ [0x61] .null rfl
    rw [List.foldl_cons, e1, List.replicate_succ, List.foldl_cons, e2, sets_replicate (asc "x") .null .null (by decide) rfl m 2]
    have : (2 : BitVec 32) + BitVec.ofNat 32 m = 0 := by
      apply BitVec.eq_of_toNat_eq
      rw [BitVec.toNat_add, BitVec.toNat_ofNat, Nat.add_mod_mod]
      show (2 + m) % 2 ^ 32 = 0
      rw [show 2 + m = 2 ^ 32 by omega]
    rw [this]
  rw [hv] at h2
  obtain ⟨s', h3, h4⟩ := h2 (List Bytes) (fun s k _ => (s ++ [k], true)) []
  have h5 : rangeObjectsBySet insertionSort (.obj 0 [⟨asc "x", 1, .null⟩, ⟨[0x61], 0, .null⟩] none) (some fun (s : List Bytes) k _ => (s ++ [k], true)) [] = .ok [[0x61], asc "x"] := by decide +kernel
  rw [h5] at h3
  cases h3
  have := (visit_visits _ _ _ _).2 h4
  revert this
  decide

-- set a, b, a again, delete b, set c: a before c
example : SeqRun sampleEnv [] [.set (asc "a") .null, .set (asc "b") .null, .set (asc "a") (.bool true), .del (asc "b"), .set (asc "c") .null] [(asc "a", .bool true), (asc "c", .null)] :=
  .set _ _ _ _ _ rfl (.set _ _ _ _ _ rfl (.set _ _ _ _ _ rfl (.del _ _ _ _ (.set _ _ _ _ _ rfl (.nil _)))))
example : (unmarshal sampleEnv (asc "{\"b\":1,\"a\":2,\"b\":3}")).bind (fun v => marshal sampleEnv insertionSort emptyOptions v [.less none, .setSeq]) = .ok (asc "{\"a\":2,\"b\":3}", none) := by
  decide +kernel

/-! ### C17 -/

/-- Marshal only depends on what the last options of each kind say. -/
theorem C17_last_wins (E : Env) (S : SortFn) (v : V) (os os' : List MOpt) (h : SameSettings os os') : marshal E S emptyOptions v os = marshal E S emptyOptions v os' :=
  marshal_agree (settings_agree h) E S v

/-- SetDefaultMarshalOptions(ds...) and then Marshal(os...) is Marshal(ds..., os...) with no default set. -/
theorem C17_default_first (E : Env) (S : SortFn) (v : V) (ds os : List MOpt) : marshal E S (setDefault ds) v os = marshal E S emptyOptions v (ds ++ os) :=
  marshal_default ds os v

/-- A plain Opt{} forgets every option before it and the default. -/
theorem C17_opt_resets (E : Env) (S : SortFn) (d : Opt) (v : V) (pre post : List MOpt) (on lf ks nt ns nf it ip ine inf) :
    marshal E S d v (pre ++ .opt on lf ks nt ns nf it ip ine inf :: post) = marshal E S emptyOptions v (.opt on lf ks nt ns nf it ip ine inf :: post) := by
  refine marshal_agree ?_ E S v
  rw [opt_resets d pre post fun o o' => rfl]
  exact ⟨rfl, rfl, rfl, ⟨rfl, rfl, rfl⟩, ⟨rfl, rfl, rfl, rfl⟩, rfl, rfl⟩

/-- at most one of the two sets `f` -/
def Apart (a b : MOpt) {α : Type} (f : MOpt → Option α) : Prop := f a = none ∨ f b = none

theorem lastSet_swap {α : Type} (f : MOpt → Option α) {a b : MOpt} (h : Apart a b f) (pre post : List MOpt) (x : α) :
    lastSet f (pre ++ a :: b :: post) x = lastSet f (pre ++ b :: a :: post) x := by
  simp only [lastSet_append, lastSet_cons]
  rcases h with h | h <;> simp [h]

/-- Two options next to each other can be exchanged unless they set the same thing. -/
theorem C17_swap (E : Env) (S : SortFn) (d : List MOpt) (v : V) (pre post : List MOpt) (a b : MOpt)
    (h1 : Apart a b setsOmitNull) (h2 : Apart a b setsOrder) (h3 : Apart a b setsNaN) (h4 : Apart a b setsNaNStr) (h5 : Apart a b setsNaNFloat)
    (h6 : Apart a b setsInf) (h7 : Apart a b setsInfStr) (h8 : Apart a b setsInfFloat) (h9 : Apart a b setsUTF8) (h10 : Apart a b setsHTML)
    (h11 : Apart a b setsSlash) (h12 : Apart a b setsIndent) :
    marshal E S (setDefault d) v (pre ++ a :: b :: post) = marshal E S (setDefault d) v (pre ++ b :: a :: post) := by
  rw [marshal_default, marshal_default, ← List.append_assoc, ← List.append_assoc]
  refine C17_last_wins E S v _ _ ⟨?_, ?_, ?_, ?_, ?_, ?_, ?_, ?_, ?_, ?_, ?_, ?_⟩ <;> apply lastSet_swap <;> assumption

/-- `f` is set again in `post` if `a` sets it -/
def Again (a : MOpt) (post : List MOpt) {α : Type} (f : MOpt → Option α) : Prop := f a = none ∨ ∃ b ∈ post, f b ≠ none

theorem lastSet_any {α : Type} (f : MOpt → Option α) : ∀ (post : List MOpt), (∃ b ∈ post, f b ≠ none) → ∀ x y, lastSet f post x = lastSet f post y
  | [], h, _, _ => by obtain ⟨b, hb, -⟩ := h; cases hb
  | c :: post, h, x, y => by
    rw [lastSet_cons, lastSet_cons]
    cases hc : f c with
    | some z => rfl
    | none =>
      refine lastSet_any f post ?_ _ _
      obtain ⟨b, hb, h⟩ := h
      rcases List.mem_cons.1 hb with rfl | hb
      · exact absurd hc h
      · exact ⟨b, hb, h⟩

theorem lastSet_drop {α : Type} (f : MOpt → Option α) {a : MOpt} {post : List MOpt} (h : Again a post f) (pre : List MOpt) (x : α) :
    lastSet f (pre ++ a :: post) x = lastSet f (pre ++ post) x := by
  simp only [lastSet_append, lastSet_cons]
  rcases h with h | h
  · rw [h]; rfl
  · exact lastSet_any f post h _ _

/-- An option that sets nothing that is not set again later can be left out. In particular a key order option followed by another. -/
theorem C17_overridden (E : Env) (S : SortFn) (d : List MOpt) (v : V) (pre post : List MOpt) (a : MOpt)
    (h1 : Again a post setsOmitNull) (h2 : Again a post setsOrder) (h3 : Again a post setsNaN) (h4 : Again a post setsNaNStr) (h5 : Again a post setsNaNFloat)
    (h6 : Again a post setsInf) (h7 : Again a post setsInfStr) (h8 : Again a post setsInfFloat) (h9 : Again a post setsUTF8) (h10 : Again a post setsHTML)
    (h11 : Again a post setsSlash) (h12 : Again a post setsIndent) :
    marshal E S (setDefault d) v (pre ++ a :: post) = marshal E S (setDefault d) v (pre ++ post) := by
  rw [marshal_default, marshal_default, ← List.append_assoc, ← List.append_assoc]
  refine C17_last_wins E S v _ _ ⟨?_, ?_, ?_, ?_, ?_, ?_, ?_, ?_, ?_, ?_, ?_, ?_⟩ <;> apply lastSet_drop <;> assumption

/-- Key order options: only the last matters. -/
theorem C17_last_order (E : Env) (S : SortFn) (d : List MOpt) (v : V) (pre mid post : List MOpt) (a b : MOpt)
    (ha : a = .setSeq ∨ (∃ s, a = .keySeq s) ∨ ∃ f, a = .less f) (hb : b = .setSeq ∨ (∃ s, b = .keySeq s) ∨ ∃ f, b = .less (some f)) :
    marshal E S (setDefault d) v (pre ++ a :: (mid ++ b :: post)) = marshal E S (setDefault d) v (pre ++ (mid ++ b :: post)) := by
  have hord : Again a (mid ++ b :: post) setsOrder := .inr ⟨b, by simp, by
    rcases hb with rfl | ⟨s, rfl⟩ | ⟨f, rfl⟩
    · simp [setsOrder]
    · cases s <;> simp [setsOrder]
    · simp [setsOrder]⟩
  apply C17_overridden
  all_goals first
    | exact hord
    | (left; rcases ha with rfl | ⟨s, rfl⟩ | ⟨f, rfl⟩ <;> rfl)

-- UTF-8 and OmitNull in either order; the second key order option overrides the first
example : Apart .utf8 (.omitNull true) setsUTF8 ∧ Apart .utf8 (.omitNull true) setsOmitNull := ⟨.inr rfl, .inl rfl⟩
example : marshal sampleEnv insertionSort (setDefault [.setSeq]) (.obj 2 [⟨asc "b", 1, .null⟩, ⟨asc "a", 2, .str [0xC3, 0xA9]⟩] none) [.keySeq [asc "b"], .utf8, .less (some defaultStringSequence), .omitNull true] =
    .ok ([0x7B, 0x22, 0x61, 0x22, 0x3A, 0x22, 0xC3, 0xA9, 0x22, 0x7D], none) := by decide +kernel

/-! ### C42 -/

/-- SortArray on an array: the same elements, and sorted if the less function is a strict weak order (on different elements of the array). -/
theorem C42_sort_array (S : SortFn) (hS : GoodSort S) (xs : List V) (less : V → V → Bool) :
    ∃ ys, sortArray S (.arr xs) (some less) = .ok (.arr ys) ∧ ys.Perm xs ∧
      ∀ lt : V → V → Bool, StrictWeak lt → (∀ (i j : Nat) a b, xs[i]? = some a → xs[j]? = some b → i ≠ j → less a b = lt a b) → ys.Pairwise fun a b => lt b a = false :=
  ⟨_, rfl, sortBy_perm hS less xs, fun lt hlt h => sortBy_sorted hS hlt xs h⟩

/-- It does nothing to other values, nor with a nil function — for which not even the receiver is looked at. -/
theorem C42_other_values (S : SortFn) (v : V) (less : Option (V → V → Bool)) : (∀ xs, v ≠ .arr xs) → (v = .nilp → less = none) → sortArray S v less = .ok v := by
  intro h hn
  cases less with
  | none => rfl
  | some f => cases v <;> first | rfl | exact absurd rfl (h _) | (have := hn rfl; cases this)

theorem C42_nil_less (S : SortFn) (v : V) : sortArray S v none = .ok v := rfl
theorem C42_nil_receiver (S : SortFn) (f : V → V → Bool) : sortArray S .nilp (some f) = .panic := rfl

-- sorting by int value
example : sortArray insertionSort (.arr [newInt64 sampleEnv 3, newInt64 sampleEnv 1, newInt64 sampleEnv 2])
    (some fun a b => match a, b with | .num _ m, .num _ n => decide (m.i64.toInt < n.i64.toInt) | _, _ => false) =
    .ok (.arr [newInt64 sampleEnv 1, newInt64 sampleEnv 2, newInt64 sampleEnv 3]) := by decide +kernel

/-! ### C48 -/

/-- The output depends on a less function only through its answers on what `Called` describes: two members of one object of the value, together with the
key path of that object (nil at the root). -/
theorem C48_less_called_with_path (E : Env) (S : SortFn) (v : V) (pre post : List MOpt) (f g : LessFn) (hv : Marshalable v)
    (h : ∀ p a b, Called v p a b → f p a.key b.key a.v b.v = g p a.key b.key a.v b.v) (hpost : ∀ op ∈ post, setsOrder op = none) :
    marshal E S emptyOptions v (pre ++ .less (some f) :: post) = marshal E S emptyOptions v (pre ++ .less (some g) :: post) :=
  marshal_less hv (fun p a b ⟨l, n, kvs, low, h1, h2, _, h3, h4⟩ => h p a b ⟨l, n, kvs, low, h1, h2, h3, h4⟩) hpost

/-- the members stand in the order of the less function, called with the key path of the object -/
def LessOrder (f : LessFn) (l : List Step) (kvs es : List Ent) : Prop :=
  ∃ p, InfoAt l p ∧ ∀ lt : Ent → Ent → Bool, StrictWeak lt → (∀ a b, a ∈ kvs → b ∈ kvs → a.key ≠ b.key → f p a.key b.key a.v b.v = lt a b) →
    es.Pairwise fun a b => lt b a = false

/-- If the less function is a strict weak order on the different members of every object, the members appear in that order. -/
theorem C48_sorted_by_less (E : Env) (S : SortFn) (v : V) (opts : List MOpt) (f : LessFn) (b : Bytes) (hS : GoodSort S) (hv : Marshalable v)
    (ho : lastSet setsOrder opts .any = .less f) (h : marshal E S emptyOptions v opts = .ok (b, none)) :
    ∃ t, Lays (combineOptions emptyOptions opts) (LessOrder f) (Escaped (lastSet setsUTF8 opts false) (lastSet setsHTML opts true) (lastSet setsSlash opts true)) [] v t ∧
      b = t.print (lastSet setsIndent opts none) 0 := by
  have hl := orderOf_less ((set_order opts).trans ho)
  refine marshal_lays hS hv (fun l par n kvs low _ hn hi => ⟨par, (hi (by rw [hl]; rfl)).1, fun lt hlt h => ?_⟩) h
  rw [sorted_eq, hl]
  exact sortBy_sorted hS hlt kvs fun i j a b ha hb hij => h a b (List.mem_of_getElem? ha) (List.mem_of_getElem? hb) (key_ne hn ha hb hij)

/-- the elements of a key path tell object keys from array indexes -/
def C48_kinds_statement : Prop := ∀ (s : Step), ((stepKey s).isString = true ↔ ∃ k, s = .key k) ∧ ((stepKey s).isInt = true ↔ ∃ i, s = .idx i)

/-- True for keys other than the empty string: the kind is right, and String and Int give the key and the index. -/
theorem C48_kinds_partial (s : Step) (h : s ≠ .key []) : ((stepKey s).isString = true ↔ ∃ k, s = .key k) ∧ ((stepKey s).isInt = true ↔ ∃ i, s = .idx i) ∧
    (∀ k, s = .key k → (stepKey s).string = k) ∧ (∀ i, s = .idx i → (stepKey s).int = i) := by
  cases s with
  | key k =>
    have : k ≠ [] := fun h' => h (by rw [h'])
    simp [stepKey, Key.isString, Key.isInt, Key.string, this]
  | idx i => simp [stepKey, Key.isString, Key.isInt, Key.int]

/-- `String` of an index is its decimal text. -/
theorem C48_string_index (i : Nat) : JInt false (stepKey (.idx i)).string (stepKey (.idx i)).string ∧ intVal false (stepKey (.idx i)).string = i := by
  have e : (stepKey (.idx i)).string = natDigits i := by simp [stepKey, Key.string]
  rw [e]
  exact ⟨⟨natDigits_intPart i, rfl⟩, by simp [intVal, (natDigits_spec i).2.2.1]⟩

/-- The empty key is taken for index 0. -/
theorem C48_kinds_counterexample : ¬ C48_kinds_statement := by
  intro h
  exact absurd ((h (.key [])).2.1 rfl) (by rintro ⟨i, h⟩; cases h)

-- sorting downwards below path ["a"], upwards elsewhere
def byPath : LessFn := fun p k1 k2 _ _ => match p with
  | some ⟨_, [⟨[0x61], _⟩]⟩ => bytesLe k2 k1
  | _ => bytesLe k1 k2
example : marshal sampleEnv insertionSort emptyOptions (.obj 2 [⟨asc "b", 1, .obj 2 [⟨asc "q", 1, .null⟩, ⟨asc "p", 2, .null⟩] none⟩, ⟨asc "a", 2, .obj 2 [⟨asc "p", 1, .null⟩, ⟨asc "q", 2, .null⟩] none⟩] none) [.less (some byPath)] =
    .ok (asc "{\"a\":{\"q\":null,\"p\":null},\"b\":{\"p\":null,\"q\":null}}", none) := by decide +kernel

/-! ### C49 -/

/-- the elements of a key path between brackets with a blank in between -/
def PathText (esc : Bytes → Bytes → Prop) (l : List Step) (t : Bytes) : Prop :=
  ∃ ts : List Bytes, ts.length = l.length ∧ (∀ (i : Nat) s u, l[i]? = some s → ts[i]? = some u → KeyText esc s u) ∧ t = [0x5B] ++ [0x20].intercalate ts ++ [0x5D]

/-- KeyPath.String does not panic. False as long as SetDefaultMarshalOptions has not been called: see `C49_counterexample`. -/
def C49_statement : Prop := ∀ (d : Opt) (l : List Step), (d = emptyOptions ∨ ∃ ds, d = setDefault ds) → ∃ t, keyPathString d (l.map stepKey) = .ok t

theorem C49_counterexample : ¬ C49_statement := by
  intro h
  obtain ⟨t, ht⟩ := h emptyOptions [.key (asc "a")] (.inl rfl)
  rw [show keyPathString emptyOptions ([Step.key (asc "a")].map stepKey) = .panic by decide +kernel] at ht
  cases ht

/-- Exactly when it panics without a default: if there is a key that is not empty. -/
theorem C49_panics_iff (l : List Step) : keyPathString emptyOptions (l.map stepKey) = .panic ↔ ∃ k, k ≠ [] ∧ .key k ∈ l := by
  have hb : ∀ (l : List Step) (first : Bool), keyPathBody emptyOptions first (l.map stepKey) = .panic ↔ ∃ k, k ≠ [] ∧ .key k ∈ l := by
    intro l
    induction l with
    | nil => intro first; simp [keyPathBody]
    | cons s l ih =>
      intro first
      rw [List.map_cons, keyPathBody]
      by_cases hs : ∃ k, k ≠ [] ∧ s = .key k
      · obtain ⟨k, hk, rfl⟩ := hs
        have : keyText emptyOptions (stepKey (.key k)) = .panic := by
          have h0 : runes k ≠ [] := by cases k with | nil => exact absurd rfl hk | cons b t => simp [runes, runesF]
          simp [keyText, stepKey, Key.isInt, Key.string, hk, escapeString, show emptyOptions.escaper = none from rfl, h0, R.bind]
        rw [this]
        exact ⟨fun _ => ⟨k, hk, by simp⟩, fun _ => rfl⟩
      · obtain ⟨t, ht⟩ : ∃ t, keyText emptyOptions (stepKey s) = .ok t := by
          cases s with
          | idx i => exact ⟨_, rfl⟩
          | key k =>
            by_cases hk : k = []
            · subst hk; exact ⟨_, rfl⟩
            · exact absurd ⟨k, hk, rfl⟩ hs
        rw [ht]
        have := ih false
        cases hr : keyPathBody emptyOptions false (l.map stepKey) with
        | panic =>
          obtain ⟨k, h1, h2⟩ := this.1 hr
          exact ⟨fun _ => ⟨k, h1, by simp [h2]⟩, fun _ => rfl⟩
        | ok r =>
          refine ⟨fun h => (by cases h), ?_⟩
          rintro ⟨k, h1, h2⟩
          rcases List.mem_cons.1 h2 with rfl | h2
          · exact absurd ⟨k, h1, rfl⟩ hs
          · have := this.2 ⟨k, h1, h2⟩; rw [hr] at this; cases this
        | diverge =>
          refine ⟨fun h => (by cases h), ?_⟩
          rintro ⟨k, h1, h2⟩
          rcases List.mem_cons.1 h2 with rfl | h2
          · exact absurd ⟨k, h1, rfl⟩ hs
          · have := this.2 ⟨k, h1, h2⟩; rw [hr] at this; cases this
        | err e =>
          refine ⟨fun h => (by cases h), ?_⟩
          rintro ⟨k, h1, h2⟩
          rcases List.mem_cons.1 h2 with rfl | h2
          · exact absurd ⟨k, h1, rfl⟩ hs
          · have := this.2 ⟨k, h1, h2⟩; rw [hr] at this; cases this
  rw [← hb l true]
  unfold keyPathString
  cases keyPathBody emptyOptions true (l.map stepKey) <;> simp [bind, pure, R.bind]

/-- With a default set it does not panic, and gives the path. -/
theorem C49_text_partial (ds : List MOpt) (l : List Step) (h : .key [] ∉ l) : ∃ t, keyPathString (setDefault ds) (l.map stepKey) = .ok t ∧
    PathText (Escaped (lastSet setsUTF8 ds false) (lastSet setsHTML ds true) (lastSet setsSlash ds true)) l t := by
  have hT : (setDefault ds).escaper = some (escOf emptyOptions ds) := rfl
  have hesc : ∀ s, Escaped (lastSet setsUTF8 ds false) (lastSet setsHTML ds true) (lastSet setsSlash ds true) s (escText (escOf emptyOptions ds) s) := by
    intro s
    refine ⟨_, Decodes_runes s, ?_⟩
    rw [← set_utf8 ds, ← set_html ds, ← set_slash ds]
    exact escText_spec _ (Decodes_runes s)
  have hk : ∀ s : Step, s ≠ .key [] → ∃ t, keyText (setDefault ds) (stepKey s) = .ok t ∧
      KeyText (Escaped (lastSet setsUTF8 ds false) (lastSet setsHTML ds true) (lastSet setsSlash ds true)) s t := by
    intro s hs
    cases s with
    | idx i => exact ⟨natDigits i, rfl, ⟨natDigits_intPart i, rfl⟩, by simp [intVal, (natDigits_spec i).2.2.1]⟩
    | key k =>
      have hk : k ≠ [] := fun h' => hs (by rw [h'])
      refine ⟨_, ?_, _, hesc k, rfl⟩
      simp [keyText, stepKey, Key.isInt, Key.string, hk, hT, escapeString_some, R.bind]
  have hb : ∀ (l : List Step), .key [] ∉ l → ∀ first : Bool, ∃ ts : List Bytes, ts.length = l.length ∧
      (∀ (i : Nat) s u, l[i]? = some s → ts[i]? = some u → KeyText (Escaped (lastSet setsUTF8 ds false) (lastSet setsHTML ds true) (lastSet setsSlash ds true)) s u) ∧
      keyPathBody (setDefault ds) first (l.map stepKey) = .ok (if first then [0x20].intercalate ts else ts.flatMap (0x20 :: ·)) := by
    intro l
    induction l with
    | nil => intro _ first; exact ⟨[], rfl, by simp, by cases first <;> rfl⟩
    | cons s l ih =>
      intro h first
      obtain ⟨t, h1, h2⟩ := hk s fun h' => h (by simp [h'])
      obtain ⟨ts, h3, h4, h5⟩ := ih (fun h' => h (by simp [h'])) false
      refine ⟨t :: ts, by simp [h3], ?_, ?_⟩
      · intro i s' u hs hu
        cases i with
        | zero => simp at hs hu; subst hs; subst hu; exact h2
        | succ i => exact h4 i s' u (by simpa using hs) (by simpa using hu)
      · rw [List.map_cons, keyPathBody, h1, h5]
        cases first with
        | false => simp [bind, pure, R.bind]
        | true =>
          have : ∀ (ts : List Bytes) (t : Bytes), [0x20].intercalate (t :: ts) = t ++ ts.flatMap (0x20 :: ·) := by
            intro ts
            induction ts with
            | nil => intro t; simp [List.intercalate]
            | cons u ts ih => intro t; rw [List.flatMap_cons, List.cons_append, ← ih u]; simp [List.intercalate]
          simp [bind, pure, R.bind, this]
  obtain ⟨ts, h1, h2, h3⟩ := hb l h true
  refine ⟨0x5B :: ([0x20].intercalate ts ++ [0x5D]), ?_, ts, h1, h2, by simp⟩
  unfold keyPathString
  rw [h3]
  rfl

-- ["a" 0]
example : keyPathString (setDefault []) [stringKey (asc "a"), intKey 0] = .ok (asc "[\"a\" 0]") := by decide +kernel

/-! ### C50 -/

/-- RangeObjects calls the callback on every member once, in some order, until it returns false. -/
theorem C50_range_objects (n : BitVec 32) (kvs : List Ent) (low : Low) (hn : (kvs.map Ent.key).Nodup) :
    ∃ L : List (Bytes × V), (L.map Prod.fst).Nodup ∧ (∀ k c, (k, c) ∈ L ↔ members (.obj n kvs low) k = some c) ∧
      forRangeObj (.obj n kvs low) = .ok L ∧
      ∀ (σ : Type) (f : Callback σ Bytes) (s : σ), ∃ s', rangeObjects (.obj n kvs low) (some f) s = .ok s' ∧ Visits f L s s' := by
  refine ⟨pairs kvs, ?_, ?_, rfl, fun σ f s => ⟨_, rfl, (visit_visits f _ _ _).1 rfl⟩⟩
  · rw [pairs, List.map_map]; exact hn
  · intro k c
    simp only [pairs, List.mem_map, Prod.mk.injEq]
    constructor
    · rintro ⟨e, he, rfl, rfl⟩; exact members_of_mem hn he
    · intro h
      simp only [members, V.child, Option.map_eq_some_iff] at h
      obtain ⟨e, he, rfl⟩ := h
      obtain ⟨rfl, hm⟩ := lookup_some_key he
      exact ⟨e, hm, rfl, rfl⟩

/-- RangeObjectsBySetSequence also visits every member once, whatever the ids are. -/
theorem C50_range_by_set (S : SortFn) (hS : GoodSort S) (n : BitVec 32) (kvs : List Ent) (low : Low) (hn : (kvs.map Ent.key).Nodup) :
    ∃ L : List (Bytes × V), (L.map Prod.fst).Nodup ∧ (∀ k c, (k, c) ∈ L ↔ members (.obj n kvs low) k = some c) ∧
      ∀ (σ : Type) (f : Callback σ Bytes) (s : σ), ∃ s', rangeObjectsBySet S (.obj n kvs low) (some f) s = .ok s' ∧ Visits f L s s' := by
  have hp := sortBy_perm hS (fun a b : Ent => decide (a.id ≤ b.id)) kvs
  obtain ⟨L, -, h2, h3, -⟩ := C50_range_objects n kvs low hn
  cases h3
  refine ⟨pairs _, ?_, fun k c => ?_, fun σ f s => ⟨_, rfl, (visit_visits f _ _ _).1 rfl⟩⟩
  · rw [pairs, List.map_map]; exact ((hp.map Ent.key).nodup_iff).2 hn
  · rw [← h2 k c]
    exact (hp.map _).mem_iff

/-- RangeArray visits the elements with their indexes, from the first; ForRangeArr returns them. -/
theorem C50_range_array (xs : List V) : forRangeArr (.arr xs) = .ok xs ∧
    ∃ L : List (Nat × V), L.length = xs.length ∧ (∀ i : Nat, L[i]? = xs[i]?.map fun x => (i, x)) ∧
      ∀ (σ : Type) (f : Callback σ Nat) (s : σ), ∃ s', rangeArray (.arr xs) (some f) s = .ok s' ∧ Visits f L s s' := by
  have hl : ∀ (xs : List V) (i : Nat), (indexed i xs).length = xs.length := by
    intro xs
    induction xs with
    | nil => intro i; rfl
    | cons x xs ih => intro i; simp [indexed, ih]
  exact ⟨rfl, indexed 0 xs, hl xs 0, fun i => by rw [indexed_get]; simp, fun σ f s => ⟨_, rfl, (visit_visits f _ _ _).1 rfl⟩⟩

/-- On values of other kinds, or with a nil callback, nothing is called. -/
theorem C50_other_kinds {σ : Type} (S : SortFn) (v : V) (hv : v ≠ .nilp) (s : σ) :
    (∀ f, (∀ n kvs low, v ≠ .obj n kvs low) → rangeObjects v f s = .ok s ∧ rangeObjectsBySet S v f s = .ok s ∧ forRangeObj v = .ok []) ∧
    (∀ f, (∀ xs, v ≠ .arr xs) → rangeArray v f s = .ok s ∧ forRangeArr v = .ok []) ∧
    rangeObjects v none s = .ok s ∧ rangeObjectsBySet S v none s = .ok s ∧ rangeArray v none s = .ok s := by
  refine ⟨fun f h => ?_, fun f h => ?_, ?_⟩
  · cases v <;> first | exact absurd rfl hv | exact absurd rfl (h _ _ _) | exact ⟨rfl, rfl, rfl⟩
  · cases v <;> first | exact absurd rfl hv | exact absurd rfl (h _) | exact ⟨rfl, rfl⟩
  · cases v <;> first | exact absurd rfl hv | exact ⟨rfl, rfl, rfl⟩

/-- A nil receiver panics in every one of these functions, nil callback or not. -/
theorem C50_nil_receiver {σ : Type} (S : SortFn) (s : σ) (f : Option (Callback σ Bytes)) (g : Option (Callback σ Nat)) :
    rangeObjects .nilp f s = .panic ∧ rangeObjectsBySet S .nilp f s = .panic ∧ rangeArray .nilp g s = .panic ∧ forRangeObj .nilp = .panic ∧ forRangeArr .nilp = .panic :=
  ⟨rfl, rfl, rfl, rfl, rfl⟩

-- stopping after the second element
example : rangeArray (.arr [.null, .bool true, .bool false]) (some fun (s : List Nat) i _ => (s ++ [i], decide (i < 1))) [] = .ok [0, 1] := by decide +kernel

/-- Len counts the children: as many as there are distinct keys or indices that lead to one, so 0 for a value of any other kind — a string too. -/
theorem C50_len (v : V) (hv : v ≠ .nilp) (hk : KeysNodup v) :
    ∃ l : List Step, l.Nodup ∧ (∀ s, s ∈ l ↔ (v.child s).isSome = true) ∧ len v = .ok l.length := by
  cases v with
  | nilp => exact absurd rfl hv
  | obj n kvs low =>
    refine ⟨(kvs.map Ent.key).map .key, ?_, fun s => ?_, by simp [len]⟩
    · exact List.Pairwise.map _ (fun a b (h : a ≠ b) => by simpa using h) (show (kvs.map Ent.key).Nodup from hk)
    · cases s with
      | key k =>
        have h := lookup_isSome (k := k) (kvs := kvs)
        simp only [V.child, Option.isSome_map]
        rw [h]
        simp [keys]
      | idx i => simp [V.child]
  | arr xs =>
    refine ⟨(List.range xs.length).map .idx, ?_, fun s => ?_, by simp [len]⟩
    · exact List.Pairwise.map _ (fun a b (h : a ≠ b) => by simpa using h) (List.nodup_range (n := xs.length))
    · cases s <;> simp [V.child]
  | _ => exact ⟨[], List.nodup_nil, fun s => by cases s <;> simp [V.child], rfl⟩

example : len (.str (asc "abc")) = .ok 0 ∧ len (.arr [.null, .null]) = .ok 2 := by decide +kernel

end JV
