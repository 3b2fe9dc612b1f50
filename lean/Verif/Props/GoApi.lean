import Verif.Proofs.GoApi
import Verif.Spec.GoApi
import Verif.Props.Import
import Verif.Props.Bytes
import Verif.Props.Compare
/-!
C57: children given as Go data. C58: the typed setters and getters. C59: NewObject(M).
-/
namespace JV
open Spec

/-! ### C57 -/

/-- C57 as stated: if Import reports an error for `x`, then Set, Insert and Append of `x` report it and leave the receiver as it is. False for
Append. -/
def C57_statement : Prop := ∀ (E : Env) (S : SortFn) (F : FloatText) (ig : Bool) (v w : V) (x : GoVal) (e : Err) (ps : List Param),
  goImport E S F ig x = .ok (w, some e) →
    setGo E S F ig v x ps = (v, .err e) ∧ (∀ after, insertGo E S F ig after v x ps = (v, .err e)) ∧ ∀ beg, appendGo E S F ig beg v x ps = (v, .err e)

/-- Set: for every value Import refuses, every receiver and path -/
theorem C57_set (E : Env) (S : SortFn) (F : FloatText) (ig : Bool) (v w : V) (x : GoVal) (e : Err) (ps : List Param)
    (h : goImport E S F ig x = .ok (w, some e)) : setGo E S F ig v x ps = (v, .err e) := by
  simp [setGo, withChild, childOf_err h, set]

/-- Insert: the same, before and after -/
theorem C57_insert (E : Env) (S : SortFn) (F : FloatText) (ig : Bool) (after : Bool) (v w : V) (x : GoVal) (e : Err) (ps : List Param)
    (h : goImport E S F ig x = .ok (w, some e)) : insertGo E S F ig after v x ps = (v, .err e) := by
  simp [insertGo, withChild, childOf_err h, insert]

/-- Append drops the error and appends a NotExist value -/
theorem C57_append_exact (E : Env) (S : SortFn) (F : FloatText) (ig : Bool) (beg : Bool) (v w : V) (x : GoVal) (e : Err) (ps : List Param)
    (h : goImport E S F ig x = .ok (w, some e)) : appendGo E S F ig beg v x ps = append E beg v { c := .notExist } ps := by
  have hw : w = .notExist := by
    unfold goImport at h
    split at h <;> simp_all
  simp [appendGo, withChild, childOf_err h, append, hw]

/-- Append(make(chan int)).InTheBeginning() on `[1]`: no error; the array then has two elements, and Marshal writes `[,1]`, also without an error -/
theorem C57_append_channel (S : SortFn) (F : FloatText) (ig : Bool) : (∃ e, goImport sampleEnv S F ig .unsupported = .ok (.notExist, some e)) ∧
    appendGo sampleEnv S F ig true (.arr [sampleNum "1"]) .unsupported [] = (.arr [.notExist, sampleNum "1"], .ok [.idx 0]) ∧
    marshal sampleEnv insertionSort {} (.arr [.notExist, sampleNum "1"]) [] = .ok (asc "[,1]", none) :=
  ⟨⟨.other, rfl⟩, rfl, by decide +kernel⟩

theorem C57_counterexample : ¬ C57_statement := by
  intro h
  have := (h sampleEnv insertionSort (fun _ _ => []) false (.arr [sampleNum "1"]) .notExist .unsupported .other [] rfl).2.2 true
  rw [(C57_append_channel insertionSort (fun _ _ => []) false).2.1] at this
  cases this

/-- A panic of Import (C53) is one of Set, Insert and Append, before they have changed anything. -/
theorem C57_panic (E : Env) (S : SortFn) (F : FloatText) (ig : Bool) (v : V) (x : GoVal) (ps : List Param) (h : goImport E S F ig x = .panic) :
    setGo E S F ig v x ps = (v, .panic) ∧ (∀ after, insertGo E S F ig after v x ps = (v, .panic)) ∧ ∀ beg, appendGo E S F ig beg v x ps = (v, .panic) := by
  have hc : childOf E S F ig x = .panic := by
    cases x <;> first
      | (simp only [childOf, h]; rfl)
      | (exfalso; simp [goImport, importVal, Ext.omit] at h)
  simp [setGo, insertGo, appendGo, withChild, hc]

example (E : Env) (S : SortFn) (F : FloatText) (ig : Bool) : setGo E S F ig sampleDoc (.struct [.mk (asc "list") [] true false (.slice [.bytes false (some [1])])]) [.str (asc "x")] = (sampleDoc, .panic) :=
  (C57_panic E S F ig _ _ _ (C53_panic E S F ig (fun _ => true)).1).1

/-- Whatever plain Go value `x` is given to Set, Insert or Append: they do what they do for a `*V` that holds the document encoding/json makes of
`x`. (A `*V` is not copied.) -/
theorem C57_plain (E : Env) (S : SortFn) (N : Bytes → Bool) (F T : FloatText) (ig : Bool) (x : GoVal) (hS : GoodSort S) (hE : E.trimSpace [0x2D] = [0x2D])
    (hx : PlainV E N F T (!ig) false false x) :
    ∃ g c, stdVal N (!ig) x = some g ∧ Holds E F T g c ∧ c.uninit = false ∧ (∀ v, x = .jv v → c = v) ∧ ∀ v ps, setGo E S F ig v x ps = set E v { c := c } ps ∧
      (∀ after, insertGo E S F ig after v x ps = insert E after v { c := c } ps) ∧ ∀ beg, appendGo E S F ig beg v x ps = append E beg v { c := c } ps := by
  obtain ⟨w, g, h1, h2, h3, h4⟩ := import_val (S := S) hS hE x { ignoreOmitempty := ig } false false ⟨rfl, by cases ig <;> rfl, rfl, by simp⟩ hx
  have h5 : goImport E S F ig x = .ok (w, none) := by simp only [goImport, h1]
  have hd : (∃ v, x = .jv v) ∨ childOf E S F ig x = .ok { c := w } := by
    cases x <;> first
      | (right; simp only [childOf, h5, R.bind_ok, R.pure_eq]; done)
      | exact .inl ⟨_, rfl⟩
      | (right; simp only [goImport, importVal, Ext.omit] at h5; cases h5; cases ig <;> rfl)
  rcases hd with ⟨v, rfl⟩ | hd
  · have hg : g = .val v ∧ v ≠ .nilp ∧ v ≠ .notExist := by
      have hw : parseDeepCopier v = w := by simpa [importVal] using h1
      cases v with
      | nilp => exact absurd (show w.at [] = some .nilp by rw [← hw]; rfl) (h4.2.1 [])
      | notExist => exact absurd hw.symm h4.2.2
      | _ => exact ⟨(Option.some.inj h2).symm, by simp, by simp⟩
    refine ⟨g, v, h2, hg.1 ▸ .val v v fun _ => rfl, ?_, ?_, ?_⟩
    · cases v <;> simp_all [V.uninit]
    · rintro _ ⟨⟩; rfl
    · intro u ps
      exact ⟨rfl, fun _ => rfl, fun _ => rfl⟩
  · refine ⟨g, w, h2, h3, marsh_uninit h4, ?_, ?_⟩
    · rintro v rfl
      simp only [childOf] at hd
      exact (congrArg Ch.c (R.ok.inj hd)).symm
    · intro u ps
      simp [setGo, insertGo, appendGo, withChild, hd]

/-- After a successful Set(x).At(ps...), Get(ps...) returns a value that holds the document encoding/json makes of `x`, provided the path does not
skip over the end of an array before its last parameter (C19). -/
theorem C57_set_get_partial (E : Env) (S : SortFn) (N : Bytes → Bool) (F T : FloatText) (ig : Bool) (x : GoVal) (hS : GoodSort S) (hE : E.trimSpace [0x2D] = [0x2D])
    (hx : PlainV E N F T (!ig) false false x) (v v' : V) (ps : List Param) (l : List Step) (h : setGo E S F ig v x ps = (v', .ok l)) (hs : ¬ Skips v ps) :
    ∃ g c, stdVal N (!ig) x = some g ∧ Holds E F T g c ∧ get E v' ps = .ok c := by
  obtain ⟨g, c, h1, h2, -, -, h3⟩ := C57_plain E S N F T ig x hS hE hx
  rw [(h3 v ps).1] at h
  exact ⟨g, c, h1, h2, C19_set_get_partial E v v' _ ps l h hs⟩

-- a struct is set deep into a document; a channel is refused
example (F T : FloatText) : ∃ g c, stdVal (fun _ => true) true samplePlain = some g ∧ Holds sampleEnv F T g c ∧
    ∃ v', setGo sampleEnv insertionSort F false (.arr [.null]) samplePlain [.int 1, .str (asc "x")] = (v', .ok [.idx 1, .key (asc "x")]) ∧ get sampleEnv v' [.int 1, .str (asc "x")] = .ok c := by
  obtain ⟨g, c, h1, h2, h3, h4, h5⟩ := C57_plain sampleEnv insertionSort (fun _ => true) F T false samplePlain insertionSort_good (by decide +kernel) (samplePlain_plain F T)
  have h6 : set sampleEnv (.arr [.null]) { c := c } [.int 1, .str (asc "x")] =
      (.arr [.null, .obj 1 [⟨asc "x", 1, c⟩] none], .ok [.idx 1, .key (asc "x")]) := by
    cases c <;> first | rfl | cases h3
  refine ⟨g, c, h1, h2, _, (h5 _ _).1.trans h6, C19_set_get_partial _ _ _ _ _ _ h6 ?_⟩
  intro h
  cases h with
  | here xs p z q qs hz hi hj => cases hz; exact hj (by decide)
  | idx xs p z i c q qs hz hi => cases hz; revert hi; simp [index]
example (F : FloatText) (ig : Bool) : setGo sampleEnv insertionSort F ig sampleDoc (.map [.mk (.str (asc "c")) .unsupported]) [.str (asc "x")] = (sampleDoc, .err .other) :=
  C57_set _ _ _ _ _ .notExist _ _ _ rfl

/-! ### C58 -/

/-- C58 as stated. False where C19 is: see the counterexample. -/
def C58_statement : Prop := ∀ (E : Env) (F : FloatText) (up : BitVec 32 → BitVec 64) (v v' : V) (t : TChild) (ps : List Param) (l : List Step),
  (∀ f, E.f64ToF32 (up f) = f) → setT E F up v t ps = (v', .ok l) → ∀ cl, GotBack E cl v' ps t

theorem gotBack_of {E : Env} {F : FloatText} {up : BitVec 32 → BitVec 64} {v : V} {t : TChild} {ps : List Param} (hup : ∀ f, t = .float32 f → E.f64ToF32 (up f) = f)
    (h : get E v ps = .ok (t.v E F up)) (cl : Bool) : GotBack E cl v ps t := by
  have hg : ∀ {α : Type} (z : α) (f : V → Ret α), typedGet E cl z f v ps = f (t.v E F up) := by
    intro α z f
    unfold typedGet
    rw [getC_of_get h]
  cases t with
  | str s => simp [GotBack, getString, hg, TChild.v]
  | bytes b => simp [GotBack, getBytes, hg, TChild.v, newBytes, b64Decode_encode]
  | bool b => simp [GotBack, getBool, hg, TChild.v, boolAndErr]
  | int64 i => simp [GotBack, getInt64, hg, TChild.v, convNum, newInt64, numberAndErr, int64, numRec]
  | int32 i =>
    have : (i.signExtend 64).setWidth 32 = i := by
      apply BitVec.eq_of_getLsbD_eq
      intro j hj
      rw [BitVec.getLsbD_setWidth, BitVec.getLsbD_signExtend]
      simp [hj, show j < 64 by omega]
    simp [GotBack, getInt32, hg, TChild.v, convNum, newInt64, numberAndErr, int32, numRec, this]
  | uint64 u => simp [GotBack, getUint64, hg, TChild.v, convNum, newUint64, numberAndErr, uint64, numRec]
  | uint32 u =>
    simp [GotBack, getUint32, hg, TChild.v, convNum, newUint64, numberAndErr, uint32, numRec]
  | float64 f => simp [GotBack, getFloat64, hg, TChild.v, convNum, newFloat, newFloat64f, numberAndErr, float64, numRec]
  | float32 f => simp [GotBack, getFloat32, hg, TChild.v, convNum, newFloat, newFloat64f, numberAndErr, float32, numRec, hup f rfl]
  | null => simp [GotBack, getNull, hg, TChild.v]
  | object => simp [GotBack, getObject, hg, TChild.v, newObject, isObject, onV, len]
  | array => simp [GotBack, getArray, hg, TChild.v, newArray, isArray, onV, len]

/-- What the typed calls store is what encoding/json would write of their argument: the text of the number (of a float32: the float32 text) and its
value. `hf`: a float is finite, and so is its float64. -/
theorem C58_stored (E : Env) (F T : FloatText) (up : BitVec 32 → BitVec 64) (t : TChild)
    (hf : ∀ f, t = .float64 f → finite f = true) (hf' : ∀ f, t = .float32 f → finite (up f) = true) : Holds E F T (tdoc up t) (t.v E F up) := by
  cases t with
  | str s => exact .str s
  | bytes b => exact .b64 _ _ (b64Encode_strict b)
  | bool b => exact .bool b
  | int64 i => exact holds_int i _ rfl rfl rfl rfl
  | int32 i =>
    have h : (i.signExtend 64).toInt = i.toInt := BitVec.toInt_signExtend_of_le (by decide)
    rw [tdoc, ← h]
    exact holds_int _ _ rfl rfl rfl rfl
  | uint64 u => exact holds_uint u _ rfl rfl rfl rfl
  | uint32 u =>
    have h : (u.zeroExtend 64).toNat = u.toNat := BitVec.toNat_setWidth_of_le (by decide)
    rw [tdoc, ← h]
    exact holds_uint _ _ rfl rfl rfl rfl
  | float64 f =>
    simp only [TChild.v, newFloat, newFloat64f, finite_valid (hf f rfl), if_true]
    exact .flt false f _ rfl
  | float32 f =>
    simp only [TChild.v, newFloat, newFloat64f, finite_valid (hf' f rfl), if_true]
    exact .flt true (up f) _ rfl
  | null => exact .null
  | object => exact objs_holds objs_new .nil
  | array => exact .arr _ _ rfl (by simp)

example (E : Env) (F T : FloatText) (up : BitVec 32 → BitVec 64) : Holds E F T (.int (-1)) ((TChild.int32 (-1)).v E F up) :=
  C58_stored E F T up (.int32 (-1)) (by intro f h; cases h) (by intro f h; cases h)

/-- After a successful SetX(x).At(ps...), for each of the twelve types, GetX(ps...) and Caseless().GetX(ps...) return `x` and no error, provided the
path does not skip over the end of an array before its last parameter (C19). `hup`: the float32 survives `float32(float64(f))`, as all but
signalling NaNs do. -/
theorem C58_set_get_partial (E : Env) (F : FloatText) (up : BitVec 32 → BitVec 64) (v v' : V) (t : TChild) (ps : List Param) (l : List Step)
    (hup : ∀ f, t = .float32 f → E.f64ToF32 (up f) = f) (h : setT E F up v t ps = (v', .ok l)) (hs : ¬ Skips v ps) (cl : Bool) : GotBack E cl v' ps t :=
  gotBack_of hup (C19_set_get_partial E v v' _ ps l h hs) cl

theorem C58_counterexample : ¬ C58_statement := by
  intro h
  have := h { sampleEnv with f64ToF32 := fun f => f.truncate 32 } (fun _ _ => []) (fun f => f.zeroExtend 64) (.arr []) (.arr [.obj 1 [⟨asc "a", 1, .bool true⟩] none])
    (.bool true) [.int 5, .str (asc "a")] [.idx 0, .key (asc "a")] (by simp) (by decide +kernel) false
  revert this
  simp only [GotBack]
  decide +kernel

/-- After a successful InsertX(x) before or after a position, the same at the place of the new element, as it is reported -/
theorem C58_insert_get (E : Env) (F : FloatText) (up : BitVec 32 → BitVec 64) (after : Bool) (v v' : V) (t : TChild) (ps : List Param) (r : List Step)
    (hup : ∀ f, t = .float32 f → E.f64ToF32 (up f) = f) (h : insertT E F up after v t ps = (v', .ok r)) (hr : Small r) (cl : Bool) : GotBack E cl v' (pathOf r) t := by
  obtain ⟨l, xs, i, rfl, -, hi, h1, -⟩ := C23_insert_ok E after v v' _ ps r h
  refine gotBack_of (F := F) hup ((get_pathOf E hr (by simp)).2 ?_) cl
  rw [at_append, h1]
  simp [V.at, child_idx, hi]

/-- After a successful AppendX(x) at the beginning or the end, the same -/
theorem C58_append_get (E : Env) (F : FloatText) (up : BitVec 32 → BitVec 64) (beg : Bool) (v v' : V) (t : TChild) (ps : List Param) (r : List Step)
    (hup : ∀ f, t = .float32 f → E.f64ToF32 (up f) = f) (h : appendT E F up beg v t ps = (v', .ok r)) (hr : Small r) (cl : Bool) : GotBack E cl v' (pathOf r) t := by
  have hc : r ≠ [] ∧ v'.at r = some (t.v E F up) := by
    unfold appendT append at h
    rcases appendAt_out E beg (t.v E F up) ps v with ⟨l, xs, ys, i, h1, h2, h3, h4⟩ | ⟨ps', v1, l, -, h2, h1⟩ | ⟨e, h1⟩ | ⟨h1, -⟩
    · rw [h] at h1 h4
      cases h1
      simp only at h4
      refine ⟨by simp, ?_⟩
      rw [at_append, h4, replace_at _ h2]
      cases beg <;> obtain ⟨rfl, rfl⟩ := h3 <;> simp [V.at, child_idx]
    · rw [h] at h1
      cases h1
      refine ⟨by simp, ?_⟩
      rw [at_append, replace_at _ (setsTo_at h2)]
      simp [V.at, child_idx]
    · rw [h] at h1; cases h1
    · rw [h] at h1; cases h1
  exact gotBack_of (F := F) hup ((get_pathOf E hr hc.1).2 hc.2) cl

-- every type, at a place that Set has to create
example (E : Env) (F : FloatText) (up : BitVec 32 → BitVec 64) (t : TChild) (hup : ∀ f, t = .float32 f → E.f64ToF32 (up f) = f) (cl : Bool) :
    ∃ v' l, setT E F up newObject t [.str (asc "a"), .str (asc "b")] = (v', .ok l) ∧ GotBack E cl v' [.str (asc "a"), .str (asc "b")] t := by
  have h : setT E F up newObject t [.str (asc "a"), .str (asc "b")] = (.obj 1 [⟨asc "a", 1, .obj 1 [⟨asc "b", 1, t.v E F up⟩] none⟩] none, .ok [.key (asc "a"), .key (asc "b")]) := by
    cases t <;> rfl
  exact ⟨_, _, h, C58_set_get_partial E F up _ _ t _ _ hup h (by intro h; cases h with | key n kvs low k c q qs h1 => cases h1) cl⟩
example (E : Env) (F : FloatText) (up : BitVec 32 → BitVec 64) (i : BitVec 32) : ∃ v', insertT E F up false (.arr [.null]) (.int32 i) [.int 0] = (v', .ok [.idx 0]) ∧
    getInt32 E false v' [.int 0] = .ok (i, none) :=
  ⟨_, rfl, C58_insert_get E F up false (.arr [.null]) _ (.int32 i) [.int 0] [.idx 0] (by simp) rfl (by intro j hj; simp at hj; omega) false⟩
example (E : Env) (F : FloatText) (up : BitVec 32 → BitVec 64) (f : BitVec 64) : ∃ v', appendT E F up true (.obj 0 [] none) (.float64 f) [.str (asc "a")] = (v', .ok [.key (asc "a"), .idx 0]) ∧
    getFloat64 E false v' [.str (asc "a"), .int 0] = .ok (f, none) :=
  ⟨_, rfl, C58_append_get E F up true (.obj 0 [] none) _ (.float64 f) [.str (asc "a")] [.key (asc "a"), .idx 0] (by simp) rfl (by intro j hj; simp at hj; omega) false⟩

/-! ### C59 -/

theorem mval_holds (E : Env) (F T : FloatText) (m : MVal) (hf : ∀ w f, m = .flt w f → finite f = true) :
    (m.child E F = none ∧ mdoc m = none) ∨ ∃ c g, m.child E F = some c ∧ mdoc m = some g ∧ Holds E F T g c ∧ Marshalable c := by
  cases m with
  | nil => exact .inr ⟨_, _, rfl, rfl, .null, marsh_leaf trivial (by simp) (by simp)⟩
  | bool b => exact .inr ⟨_, _, rfl, rfl, .bool b, marsh_leaf trivial (by simp) (by simp)⟩
  | int i => exact .inr ⟨_, _, rfl, rfl, holds_int i _ rfl rfl rfl rfl, marsh_leaf trivial (by simp [newInt64]) (by simp [newInt64])⟩
  | uint u => exact .inr ⟨_, _, rfl, rfl, holds_uint u _ rfl rfl rfl rfl, marsh_leaf trivial (by simp [newUint64]) (by simp [newUint64])⟩
  | flt w f =>
    have hfin := hf w f rfl
    have hv := finite_valid hfin
    refine .inr ⟨_, _, rfl, rfl, ?_, marsh_leaf trivial (by simp [newFloat, newFloat64f]) (by simp [newFloat, newFloat64f])⟩
    simp only [newFloat, newFloat64f, hv, if_true]
    exact .flt false f _ rfl
  | str s => exact .inr ⟨_, _, rfl, rfl, .str s, marsh_leaf trivial (by simp) (by simp)⟩
  | other => exact .inl ⟨rfl, rfl⟩

theorem newObjectLoop_objs (E : Env) (F T : FloatText) : ∀ (kvs : List (Bytes × MVal)) (v : V) (L : List (Bytes × V)), Objs v L →
    (L.map Prod.fst ++ kvs.map Prod.fst).Nodup → (∀ p ∈ kvs, ∀ w f, p.2 = .flt w f → finite f = true) →
    ∃ w L', newObjectLoop E F v kvs = .ok w ∧ Objs w (L ++ L') ∧ MRel E F T L' (mdocs kvs)
  | [], v, L, ho, _, _ => ⟨v, [], rfl, by simpa using ho, .nil⟩
  | (k, m) :: kvs, v, L, ho, hn, hf => by
    have hf' : ∀ p ∈ kvs, ∀ w f, p.2 = .flt w f → finite f = true := fun p hp => hf p (List.mem_cons_of_mem _ hp)
    rcases mval_holds E F T m (hf (k, m) (by simp)) with ⟨h1, h2⟩ | ⟨c, g, h1, h2, h3, h4⟩
    · have hn' : (L.map Prod.fst ++ kvs.map Prod.fst).Nodup := by
        refine hn.sublist ?_
        simp
      obtain ⟨w, L', h5, h6, h7⟩ := newObjectLoop_objs E F T kvs v L ho hn' hf'
      refine ⟨w, L', by simpa [newObjectLoop, h1] using h5, h6, ?_⟩
      simpa [mdocs, h2] using h7
    · have hk : k ∉ L.map Prod.fst := by
        intro hm
        exact (List.nodup_append.1 hn).2.2 k hm k (by simp) rfl
      obtain ⟨w1, hw1, ho1⟩ := mustSetKey_objs (E := E) ho hk (marsh_uninit h4)
      obtain ⟨w, L', h5, h6, h7⟩ := newObjectLoop_objs E F T kvs w1 (L ++ [(k, c)]) ho1 (by simpa using hn) hf'
      refine ⟨w, (k, c) :: L', by simpa [newObjectLoop, h1, hw1] using h5, by simpa using h6, ?_⟩
      simpa [mdocs, h2] using MRel.cons h3 h4 h7

/-- NewObject(M), whatever order the map is walked in: an object with exactly one member for each entry whose value is nil, a boolean, an integer, a
string or a finite float, and no other member; each member holds what encoding/json would write (a float32 counts as float64). Marshal of it does not panic. -/
theorem C59_new_object (E : Env) (S : SortFn) (F T : FloatText) (kvs : List (Bytes × MVal)) (hk : (kvs.map Prod.fst).Nodup)
    (hf : ∀ p ∈ kvs, ∀ w f, p.2 = .flt w f → finite f = true) :
    ∃ v, newObjectM E F kvs = .ok v ∧ Holds E F T (.obj (mdocs kvs)) v ∧ ∀ d opts, ∃ b e, marshal E S d v opts = .ok (b, e) := by
  obtain ⟨v, L, h1, h2, h3⟩ := newObjectLoop_objs E F T kvs newObject [] objs_new (by simpa using hk) hf
  simp only [List.nil_append] at h2
  refine ⟨v, h1, objs_holds h2 h3, fun d opts => ?_⟩
  rw [marshal_eq d (objs_marsh h2 (mrel_marsh h3))]
  cases errOf (optOf d opts) v <;> exact ⟨_, _, rfl⟩

/-- an entry of another kind is left out, without a word -/
theorem C59_other_kinds (E : Env) (F : FloatText) (kvs : List (Bytes × MVal)) :
    newObjectM E F kvs = newObjectM E F (kvs.filter fun p => p.2 ≠ .other) := by
  suffices h : ∀ v, newObjectLoop E F v kvs = newObjectLoop E F v (kvs.filter fun p => p.2 ≠ .other) from h _
  induction kvs with
  | nil => intro v; rfl
  | cons p kvs ih =>
    intro v
    obtain ⟨k, m⟩ := p
    by_cases hm : m = .other
    · subst hm; simpa [newObjectLoop, MVal.child] using ih v
    · simp only [ne_eq, hm, not_false_eq_true, decide_true, List.filter_cons_of_pos, newObjectLoop]
      cases m.child E F with
      | none => exact ih v
      | some c =>
        simp only
        cases mustSetKey E v c k with
        | ok w => exact ih w
        | _ => rfl

/-- A float32 is stored as the float64 of the same value, with the text of that: where the two texts differ (as for 0.1), the member is not what
Import, SetFloat32 and encoding/json give. -/
theorem C59_float32 (E : Env) (F : FloatText) (k : Bytes) (f : BitVec 64) (hf : finite f = true) :
    newObjectM E F [(k, .flt true f)] = .ok (.obj 1 [⟨k, 1, newFloat E F false f⟩] none) ∧
    (F false f ≠ F true f → ∀ T, ¬ Holds E F T (.flt true f) (newFloat E F false f)) := by
  refine ⟨rfl, fun hne T h => ?_⟩
  simp only [newFloat, newFloat64f, finite_valid hf, if_true] at h
  generalize ht : F false f = t at h hne
  cases h
  exact hne rfl

-- M{"a": nil, "b": int8(-1), "c": []int{1}, "d": "x"}
example (E : Env) (F : FloatText) : newObjectM E F [(asc "a", .nil), (asc "b", .int (-1)), (asc "c", .other), (asc "d", .str (asc "x"))] =
    .ok (.obj 3 [⟨asc "a", 1, .null⟩, ⟨asc "b", 2, newInt64 E (-1)⟩, ⟨asc "d", 3, .str (asc "x")⟩] none) := rfl
example (E : Env) (S : SortFn) (F T : FloatText) : ∃ v, newObjectM E F [(asc "a", .nil), (asc "b", .flt true 0), (asc "c", .other), (asc "d", .str (asc "x"))] = .ok v ∧
    Holds E F T (.obj [⟨asc "a", .null⟩, ⟨asc "b", .flt false 0⟩, ⟨asc "d", .str (asc "x")⟩]) v ∧ ∀ d opts, ∃ b e, marshal E S d v opts = .ok (b, e) :=
  C59_new_object E S F T _ (by decide +kernel) (by
    intro p hp w f h
    simp only [List.mem_cons, List.not_mem_nil, or_false] at hp
    rcases hp with rfl | rfl | rfl | rfl <;> cases h
    decide)

/-! ### C34 with Go data -/

/-- Contains with a plain Go value as second argument: it never panics, and asks whether the document encoding/json makes of that value is part of
`v`. -/
theorem C34_go_data (E : Env) (S : SortFn) (N : Bytes → Bool) (F T : FloatText) (ig : Bool) (D : DecFn) (x : GoVal) (v : V) (hS : GoodSort S)
    (hE : E.trimSpace [0x2D] = [0x2D]) (hx : PlainV E N F T (!ig) false false x) (hv : Her KeysNodup v) :
    ∃ g c, stdVal N (!ig) x = some g ∧ Holds E F T g c ∧ (∃ b, containsGo E S F ig D v x [] = .ok b) ∧
      (containsGo E S F ig D v x [] = .ok true ↔ Within (valOf D) c v) := by
  have key : ∃ g c, stdVal N (!ig) x = some g ∧ Holds E F T g c ∧ Her KeysNodup c ∧ Her (· ≠ .nilp) c ∧
      (v = .nilp ∨ containsGo E S F ig D v x [] = containsAt E D v c []) := by
    obtain ⟨w, g, h1, h2, h3, h4⟩ := import_val (S := S) hS hE x { ignoreOmitempty := ig } false false ⟨rfl, by cases ig <;> rfl, rfl, by simp⟩ hx
    have h5 : goImport E S F ig x = .ok (w, none) := by simp only [goImport, h1]
    by_cases hj : ∃ u, x = .jv u
    · obtain ⟨u, rfl⟩ := hj
      refine ⟨.val u, u, ?_, .val u u fun _ => rfl, hx.2.2, hx.2.1, ?_⟩
      · cases u <;> first | exact absurd rfl (hx.2.1 [] _ rfl) | rfl
      · cases v <;> first | exact .inl rfl | exact .inr rfl
    · refine ⟨g, w, h2, h3, h4.1, marsh_her h4, ?_⟩
      by_cases hn : v = .nilp
      · exact .inl hn
      · right
        cases x <;> first
          | exact absurd ⟨_, rfl⟩ hj
          | (cases v <;> first | exact absurd rfl hn | simp only [containsGo, h5])
  obtain ⟨g, c, h1, h2, h3, h4, h5⟩ := key
  refine ⟨g, c, h1, h2, ?_⟩
  have h6 : containsGo E S F ig D v x [] = containsAt E D v c [] := by
    rcases h5 with rfl | h5
    · rfl
    · exact h5
  rw [h6]
  exact C34_contains_iff E D v c hv h3 h4

/-- what Import refuses is contained nowhere -/
theorem C34_go_data_error (E : Env) (S : SortFn) (F : FloatText) (ig : Bool) (D : DecFn) (x : GoVal) (v w : V) (e : Err) (ps : List Param)
    (h : goImport E S F ig x = .ok (w, some e)) : containsGo E S F ig D v x ps = .ok false := by
  by_cases hn : v = .nilp
  · subst hn; rfl
  · by_cases hj : ∃ u, x = .jv u
    · obtain ⟨u, rfl⟩ := hj
      simp [goImport, importVal] at h
    · cases x <;> first
        | exact absurd ⟨_, rfl⟩ hj
        | (cases v <;> first | exact absurd rfl hn | simp only [containsGo, h])

-- Contains([1, "x", 2], []any{"x"})
example : containsGo sampleEnv insertionSort (fun _ _ => []) false newFromString (.arr [sampleNum "1", .str (asc "x"), sampleNum "2"]) (.slice [.iface (.str (asc "x"))]) [] = .ok true := by
  decide +kernel
example : containsGo sampleEnv insertionSort (fun _ _ => []) false newFromString (.arr [sampleNum "1", .str (asc "x"), sampleNum "2"]) (.slice [.iface (.str (asc "y"))]) [] = .ok false := by
  decide +kernel

/-! ### C38 for values behind a second pointer -/

/-- Import of a `**V`, or of a `V` by value: the value is marshalled with the default options and parsed again. Under the conditions of C09 that gives an
Equal value too. -/
theorem C38_by_text (E : Env) (S : SortFn) (F : FloatText) (D : DecFn) (d : Opt) (v : V) (em : Bool) (hS : GoodSort S) (hk : Her KeysNodup v)
    (hp : Her (Portable E) v) (hi : BlankIndent d.indent) (ho : d.omitNull = false) :
    ∃ b w, marshalJSON E S d v = .ok (b, none) ∧ (∀ ig, goImport E S F ig (.marsh em (some b)) = .ok (w, none)) ∧ equal D v w = true := by
  obtain ⟨b, w, h1, h2, h3⟩ := C09_roundtrip_partial E S D d v [] hS hk hp hi
  rw [show (combineOptions d []).omitNull = false from ho] at h3
  refine ⟨b, w, h1, fun ig => ?_, h3⟩
  have : Ext.omit { ignoreOmitempty := ig } = false := by cases ig <;> rfl
  simp [goImport, importVal, parseJSONMarshaler, h2, this]

-- a member that is null survives, also where it would be left out of a struct field
example (S : SortFn) (F : FloatText) (ig : Bool) : ∃ b, marshalJSON sampleEnv insertionSort {} (.obj 1 [⟨asc "a", 0, .null⟩] none) = .ok (b, none) ∧
    goImport sampleEnv S F ig (.marsh false (some b)) = .ok (.obj 1 [⟨asc "a", 1, .null⟩] none, none) := ⟨asc "{\"a\":null}", by decide +kernel, by cases ig <;> rfl⟩

end JV
