import Verif.Proofs.ImportObj
/-! Import makes of a plain Go value what encoding/json does. -/
namespace JV
open Spec

variable {E : Env} {S : SortFn} {N : Bytes → Bool} {F T : FloatText} {om : Bool}

/-- the flags below a field -/
structure Fit (ex : Ext) (om o q : Bool) : Prop where
  priv : ex.isPrivate = false
  omt : ex.omit = o
  str : ex.toString = q
  ign : ex.ignoreOmitempty = !om

theorem fit_elem {ex : Ext} {o q : Bool} (h : Fit ex om o q) : Fit { ex with omitempty := false } om false q :=
  ⟨h.priv, by simp [Ext.omit, h.priv], h.str, h.ign⟩

/-- what a marshaler gives is kept -/
theorem fullDoc_kept {j : J} {v : V} (hd : Denotes E (NumDenotes E) j v) (h : FullDoc E j) : emptyV v = false := by
  cases hd with
  | null => exact h.elim
  | bool b => simpa [emptyV, FullDoc] using h
  | num t n hn =>
    obtain ⟨⟨neg, ip, hj⟩, h1, h2⟩ := h
    rw [(hn.2 neg ip hj).2] at h1 h2
    simp only [emptyV, fltNonzero, Bool.not_eq_false']
    simp at h1 h2
    simp [h1, h2]
  | str s => simpa [emptyV, FullDoc] using h
  | arr xs vs hl _ =>
    cases vs with
    | nil => exact absurd (List.length_eq_zero_iff.1 hl.symm) h
    | cons => rfl
  | obj ms v child ks ho _ _ _ _ hk hl =>
    cases v with
    | obj n kvs low =>
      cases kvs with
      | cons => rfl
      | nil =>
        cases ms with
        | nil => exact absurd rfl h
        | cons m ms =>
          have := (hk m.key).2 ⟨m, by simp, rfl⟩
          cases ks with
          | nil => cases this
          | cons => simp [len, onV] at hl
    | _ => cases ho

/-- outcome of a value -/
def Good (E : Env) (N : Bytes → Bool) (F T : FloatText) (om : Bool) (x : GoVal) (r : R V) : Prop :=
  ∃ v g, r = .ok v ∧ stdVal N om x = some g ∧ Holds E F T g v ∧ Marshalable v

theorem holds_int (i : BitVec 64) (n : Num) (h1 : n.floated = false) (h2 : n.negative = decide (i.toInt < 0)) (h3 : n.i64 = i) (h4 : n.u64 = i) :
    Holds E F T (.int i.toInt) (.num (fmtInt i) n) := by
  rw [fmtInt_decimal]
  refine .int _ _ h1 h2 (fun _ => by rw [h3]) (fun h => ?_)
  rw [h4, BitVec.toInt_eq_toNat_cond] at *
  have := i.isLt
  split at h <;> omega

theorem holds_uint (u : BitVec 64) (n : Num) (h1 : n.floated = false) (h2 : n.negative = false) (h3 : n.i64 = u) (h4 : n.u64 = u) :
    Holds E F T (.int u.toNat) (.num (fmtUint u) n) := by
  rw [fmtUint_decimal]
  refine .int _ _ h1 (by rw [h2]; simp) (fun h => ?_) (fun h => by rw [h4])
  rw [h3, BitVec.toInt_eq_toNat_cond]
  have := u.isLt
  split <;> omega

theorem finite_valid {f : BitVec 64} (h : finite f = true) : isValidFloat f = true := by
  have hf : (f &&& 0x7FF0000000000000#64) ≠ 0x7FF0000000000000#64 := by simpa [finite] using h
  have h1 : isNaN f = false := by simp [isNaN, hf]
  have h2 : isInfP f = false := by
    simp only [isInfP, beq_eq_false_iff_ne]
    rintro rfl; exact hf (by decide)
  have h3 : isInfN f = false := by
    simp only [isInfN, beq_eq_false_iff_ne]
    rintro rfl; exact hf (by decide)
  simp [isValidFloat, h1, h2, h3]

theorem fltEmpty (w : Bool) (f : BitVec 64) : goEmpty (.flt w f) = !fltNonzero f := by
  simp only [goEmpty, fltNonzero]
  by_cases h0 : f = 0#64 <;> by_cases h1 : f = 0x8000000000000000#64 <;> simp [h0, h1]

theorem good_scalar {ex : Ext} {o : Bool} {x : GoVal} (hf : Fit ex om o true) (ro : RO) (h : PlainScalar F T o x) :
    ∃ v g, importVal E S F ex ro x = .ok v ∧ stdVal N om x = some g ∧ Holds E F T (.quoted g) v ∧ Marshalable v := by
  cases x with
  | bool b =>
    have : (!b && o) = false := by cases o <;> simp_all [PlainScalar]
    refine ⟨.str (boolText b), .bool b, ?_, rfl, .qbool b, marsh_leaf trivial (by simp) (by simp)⟩
    simp [importVal, hf.omt, hf.str, this]
  | int i =>
    have : (decide (i = 0) && o) = false := by cases o <;> simp_all [PlainScalar]
    refine ⟨.str (fmtInt i), .int i.toInt, ?_, rfl, by rw [fmtInt_decimal]; exact .qint _, marsh_leaf trivial (by simp) (by simp)⟩
    simp only [importVal, hf.omt, hf.str, this]; rfl
  | uint i =>
    have : (decide (i = 0) && o) = false := by cases o <;> simp_all [PlainScalar]
    refine ⟨.str (fmtUint i), .int i.toNat, ?_, rfl, by rw [fmtUint_decimal]; exact .qint _, marsh_leaf trivial (by simp) (by simp)⟩
    simp only [importVal, hf.omt, hf.str, this]; rfl
  | flt w f =>
    obtain ⟨h1, h2, h3⟩ := h
    rw [fltEmpty] at h2
    have : (!fltNonzero f && o) = false := by cases o <;> simp_all
    refine ⟨.str (T w f), .flt w f, ?_, by simp [stdVal, h1], .qflt w f, marsh_leaf trivial (by simp) (by simp)⟩
    simp [importVal, hf.omt, hf.str, this, floatString, finite_valid h1, h3]
  | _ => exact absurd h (by simp [PlainScalar])

theorem good_quoted {ex : Ext} {o : Bool} {x : GoVal} (hf : Fit ex om o true) (ro : RO) (h : PlainQuoted F T o x) :
    quotable x = true ∧ ∃ v g, importVal E S F ex ro x = .ok v ∧ stdVal N om x = some g ∧ Holds E F T (.quoted g) v ∧ Marshalable v := by
  cases x with
  | ptr x =>
    refine ⟨?_, good_scalar (x := x) hf ro h⟩
    cases x <;> first | rfl | exact absurd h (by simp [PlainQuoted, PlainScalar])
  | _ => first
    | exact ⟨rfl, good_scalar hf ro h⟩
    | exact absurd h (by simp [PlainQuoted, PlainScalar])

theorem import_leftOut {ex : Ext} {q : Bool} {x : GoVal} (hf : Fit ex om true q) (h : leftOut x = true) : importVal E S F ex .no x = .ok .nilp ∧ goEmpty x = true := by
  cases x with
  | arr xs => simp [leftOut] at h
  | marsh _ _ => simp [leftOut] at h
  | text _ _ => simp [leftOut] at h
  | jv v => cases v <;> simp_all [leftOut, goEmpty, importVal, parseDeepCopier]
  | iface x => cases x <;> simp_all [leftOut, goEmpty, importVal, RO.elem, hf.omt]
  | bytes named b =>
    have h' : (b.getD []).isEmpty = true := h
    cases named <;> simp [importVal, hf.omt, h', goEmpty]
  | flt w f =>
    have h' : goEmpty (.flt w f) = true := h
    refine ⟨?_, h'⟩
    rw [fltEmpty] at h'
    simp [importVal, hf.omt, h']
  | _ => simp_all [leftOut, goEmpty, importVal, hf.omt]

/-- a value that cannot become an object does not -/
theorem notObject_std : ∀ {x : GoVal} {g : GJ}, notObject x = true → stdVal N om x = some g →
    (∀ ms, g ≠ .obj ms) ∧ (∀ b, g ≠ .raw b) ∧ (∀ v, g ≠ .val v) := by
  intro x
  induction x using GoVal.rec (motive_2 := fun _ => True) (motive_3 := fun _ => True) (motive_4 := fun _ => True) (motive_5 := fun _ => True)
      (motive_6 := fun _ => True) with
  | ptr x ih => intro g h hs; exact ih h (by simpa [stdVal] using hs)
  | iface x ih => intro g h hs; exact ih h (by simpa [stdVal] using hs)
  | bytes n b =>
    intro g h hs
    cases b <;> (simp [stdVal] at hs; subst hs; simp)
  | flt w f =>
    intro g h hs
    simp [stdVal] at hs; rw [← hs.2]; simp
  | arr xs _ =>
    intro g h hs
    simp only [stdVal, Option.map_eq_some_iff] at hs
    obtain ⟨a, -, rfl⟩ := hs; simp
  | slice xs _ =>
    intro g h hs
    simp only [stdVal, Option.map_eq_some_iff] at hs
    obtain ⟨a, -, rfl⟩ := hs; simp
  | text e o =>
    intro g h hs
    simp only [stdVal, Option.map_eq_some_iff] at hs
    obtain ⟨a, -, rfl⟩ := hs; simp
  | struct _ _ => intro g h; simp [notObject] at h
  | map _ _ => intro g h; simp [notObject] at h
  | jv _ => intro g h; simp [notObject] at h
  | marsh _ _ => intro g h; simp [notObject] at h
  | nilMarsh => intro g h; simp [notObject] at h
  | _ => first
    | (intros; exact True.intro)
    | (intro g h hs; simp [stdVal] at hs; subst hs; simp)
    | (intro g h hs; simp [stdVal] at hs)

theorem holds_notObj {g : GJ} {v : V} (h : Holds E F T g v) (h1 : ∀ ms, g ≠ .obj ms) (h2 : ∀ b, g ≠ .raw b) (h3 : ∀ v, g ≠ .val v) : ∀ n kvs low, v ≠ .obj n kvs low := by
  cases h with
  | obj ms => exact absurd rfl (h1 ms)
  | raw b => exact absurd rfl (h2 b)
  | val v => exact absurd rfl (h3 v)
  | _ => intros; simp

theorem holds_quoted_notObj {g : GJ} {v : V} (h : Holds E F T (.quoted g) v) : ∀ n kvs low, v ≠ .obj n kvs low := by
  cases h <;> (intros; simp)

inductive LRel (E : Env) (F T : FloatText) : List GJ → List V → Prop
  | nil : LRel E F T [] []
  | cons {g v gs vs} : Holds E F T g v → Marshalable v → LRel E F T gs vs → LRel E F T (g :: gs) (v :: vs)

theorem lrel_length {gs : List GJ} {vs : List V} (h : LRel E F T gs vs) : vs.length = gs.length := by
  induction h with
  | nil => rfl
  | cons _ _ _ ih => simp [ih]

theorem lrel_marsh {gs : List GJ} {vs : List V} (h : LRel E F T gs vs) : ∀ v ∈ vs, Marshalable v := by
  induction h with
  | nil => simp
  | cons _ h2 _ ih => simpa [h2] using ih

theorem lrel_get {gs : List GJ} {vs : List V} (h : LRel E F T gs vs) : ∀ (i : Nat) x w, gs[i]? = some x → vs[i]? = some w → Holds E F T x w := by
  induction h with
  | nil => simp
  | cons h _ _ ih =>
    intro i x w h1 h2
    cases i with
    | zero => simp at h1 h2; subst h1; subst h2; exact h
    | succ i => simp at h1 h2; exact ih i x w h1 h2

theorem lrel_holds {gs : List GJ} {vs : List V} (h : LRel E F T gs vs) : Holds E F T (.arr gs) (.arr vs) := .arr _ _ (lrel_length h) (lrel_get h)

theorem mustAppend_arr (acc : List V) (c : V) : mustAppend E (.arr acc) c = .ok (.arr (acc ++ [c])) := by
  unfold mustAppend
  rw [C24_append_root]; simp

/-- the member a field gives that is no embedded struct -/
def fieldCand (N : Bytes → Bool) (om : Bool) (tag : Bytes) (x : GoVal) (d : Nat) (nm : Bytes) (b : Bool) : Cand :=
  { name := nm, depth := d, tagged := b, hidden := false,
    omitted := om && tagHas tag omitemptyWord && goEmpty x,
    res := if tagHas tag stringWord && quotable x then (stdVal N om x).map .quoted else stdVal N om x }

theorem good_field {name tag : Bytes} {x : GoVal} (hx : ∀ ex o q, Fit ex om o q → PlainV E N F T om o q x → Good E N F T om x (importVal E S F ex .no x)) (ex : Ext) (d : Nat)
    (hf : Fit ex om (om && tagHas tag omitemptyWord) (tagHas tag stringWord)) (nm : Bytes) (b : Bool)
    (h : (let o := om && tagHas tag omitemptyWord
      let q := tagHas tag stringWord
      (o = true ∧ leftOut x = true) ∨
      ((o = true → goEmpty x = false) ∧ ((q = true ∧ PlainQuoted F T o x) ∨ ((q && quotable x) = false ∧ PlainV E N F T om o q x))))) :
    ∃ c ms L, importVal E S F ex .no x = .ok c ∧
      visible [fieldCand N om tag x d nm b] = some ms ∧ MRel E F T L ms ∧
      ((c = .nilp ∧ L = []) ∨ (Marshalable c ∧ L = [(nm, c)] ∧ (notObject x = true → ∀ n kvs low, c ≠ .obj n kvs low))) := by
  rcases h with ⟨ho, hl⟩ | ⟨he, h⟩
  · rw [ho] at hf
    obtain ⟨h1, h2⟩ := import_leftOut (E := E) (S := S) (F := F) hf hl
    exact ⟨.nilp, [], [], h1, by simp [visible, fieldCand, ho, h2], .nil, .inl ⟨rfl, rfl⟩⟩
  · have hom : (om && tagHas tag omitemptyWord && goEmpty x) = false := by
      cases ho : (om && tagHas tag omitemptyWord) with
      | false => rfl
      | true => simp [he ho]
    rcases h with ⟨hq, hp⟩ | ⟨hq, hp⟩
    · rw [hq] at hf
      obtain ⟨hquot, v, g, h1, h2, h3, h4⟩ := good_quoted (E := E) (S := S) (N := N) hf .no hp
      refine ⟨v, [⟨nm, .quoted g⟩], [(nm, v)], h1, ?_, .cons h3 h4 .nil, .inr ⟨h4, rfl, fun _ => holds_quoted_notObj h3⟩⟩
      simp [visible, fieldCand, hom, hq, hquot, h2]
    · obtain ⟨v, g, h1, h2, h3, h4⟩ := hx ex _ _ hf hp
      refine ⟨v, [⟨nm, g⟩], [(nm, v)], h1, ?_, .cons h3 h4 .nil, .inr ⟨h4, rfl, fun hno => ?_⟩⟩
      · simp [visible, fieldCand, hom, hq, h2]
      · obtain ⟨a, b, c⟩ := notObject_std hno h2
        exact holds_notObj h3 a b c

theorem ext_fit {ex pex : Ext} {tag : Bytes} (hp : pex.ignoreOmitempty = !om)
    (h : ex = { omitempty := tagHas tag omitemptyWord, toString := tagHas tag stringWord, ignoreOmitempty := pex.ignoreOmitempty }) :
    Fit ex om (om && tagHas tag omitemptyWord) (tagHas tag stringWord) := by
  subst h
  refine ⟨rfl, ?_, rfl, hp⟩
  cases om <;> simp [Ext.omit, hp]

theorem nilPtr_of {x : GoVal} (hno : notObject x = true) (hnp : isNilPtr x = true) : ∃ t, x = .nilPtr t := by
  cases x with
  | nilPtr t => exact ⟨t, rfl⟩
  | _ => simp_all [notObject, isNilPtr]

theorem quotable_import (ex : Ext) (ro : RO) {x : GoVal} (hq : quotable x = true) (hptr : ∀ y, x ≠ .ptr y) :
    ∃ c, importVal E S F ex ro x = .ok c ∧ ∀ n kvs low, c ≠ .obj n kvs low := by
  cases x with
  | ptr y => exact absurd rfl (hptr y)
  | bool b => refine ⟨_, rfl, ?_⟩; intros; split; · simp
              split <;> simp
  | int b => refine ⟨_, rfl, ?_⟩; intros; split; · simp
             split <;> simp [newInt64]
  | uint b => refine ⟨_, rfl, ?_⟩; intros; split; · simp
              split <;> simp [newUint64]
  | flt w b => refine ⟨_, rfl, ?_⟩; intros; split; · simp
               split <;> simp [newFloat, newFloat64f]
  | str b => refine ⟨_, rfl, ?_⟩; intros; split <;> simp
  | _ => exact absurd hq (by simp [quotable])

mutual
theorem import_val (hS : GoodSort S) (hE : E.trimSpace [0x2D] = [0x2D]) : ∀ (x : GoVal) (ex : Ext) (o q : Bool), Fit ex om o q → PlainV E N F T om o q x →
    Good E N F T om x (importVal E S F ex .no x)
  | .invalid => by
    intro ex o q hf hp
    have hp : o = false := hp
    exact ⟨.null, .null, by simp [importVal, hf.omt, hp], rfl, .null, marsh_leaf trivial (by simp) (by simp)⟩
  | .bool b => by
    intro ex o q hf hp
    obtain ⟨hq, ho⟩ := hp
    have : (!b && o) = false := by cases o <;> simp_all
    exact ⟨.bool b, .bool b, by simp [importVal, hf.omt, hf.str, this, hq], rfl, .bool b, marsh_leaf trivial (by simp) (by simp)⟩
  | .int i => by
    intro ex o q hf hp
    obtain ⟨hq, ho⟩ := hp
    have : (decide (i = 0) && o) = false := by cases o <;> simp_all
    refine ⟨newInt64 E i, .int i.toInt, ?_, rfl, holds_int i _ rfl rfl rfl rfl, marsh_leaf trivial (by simp [newInt64, newUint64]) (by simp [newInt64, newUint64])⟩
    simp only [importVal, hf.omt, hf.str, this, hq]; rfl
  | .uint i => by
    intro ex o q hf hp
    obtain ⟨hq, ho⟩ := hp
    have : (decide (i = 0) && o) = false := by cases o <;> simp_all
    refine ⟨newUint64 E i, .int i.toNat, ?_, rfl, holds_uint i _ rfl rfl rfl rfl, marsh_leaf trivial (by simp [newInt64, newUint64]) (by simp [newInt64, newUint64])⟩
    simp only [importVal, hf.omt, hf.str, this, hq]; rfl
  | .flt w f => by
    intro ex o q hf hp
    obtain ⟨hq, hfin, ho⟩ := hp
    rw [fltEmpty] at ho
    have : (!fltNonzero f && o) = false := by cases o <;> simp_all
    refine ⟨newFloat E F w f, .flt w f, ?_, by simp [stdVal, hfin], ?_, marsh_leaf trivial (by simp [newFloat, newFloat64f]) (by simp [newFloat, newFloat64f])⟩
    · simp [importVal, hf.omt, hf.str, this, hq]
    · simp only [newFloat, newFloat64f, finite_valid hfin, if_true]
      exact .flt w f _ rfl
  | .str s => by
    intro ex o q hf hp
    have hp : o = true → s ≠ [] := hp
    have : (s.isEmpty && o) = false := by cases o <;> simp_all
    refine ⟨.str s, .str s, ?_, rfl, .str s, marsh_leaf trivial (by simp) (by simp)⟩
    simp only [importVal, hf.omt, this]; rfl
  | .bytes named b => by
    intro ex o q hf hp
    obtain ⟨rfl, c, rfl, ho⟩ := hp
    have : (c.isEmpty && o) = false := by cases o <;> simp_all
    refine ⟨newBytes c, .b64 c, ?_, rfl, .b64 _ _ (b64Encode_strict c), marsh_leaf trivial (by simp [newBytes]) (by simp [newBytes])⟩
    simp only [importVal, hf.omt, Option.getD_some, this]; rfl
  | .arr xs => by
    intro ex o q hf hp
    obtain ⟨vs, gs, h1, h2, h3⟩ := import_list hS hE xs _ q [] (fit_elem hf) hp
    exact ⟨.arr vs, .arr gs, by simpa [importVal, RO.elem, newArray] using h1, by simp [stdVal, h2], lrel_holds h3, marsh_arr (lrel_marsh h3)⟩
  | .nilSlice => by intro ex o q hf hp; exact hp.elim
  | .slice xs => by
    intro ex o q hf hp
    obtain ⟨ho, hp⟩ := hp
    obtain ⟨vs, gs, h1, h2, h3⟩ := import_list hS hE xs _ q [] (fit_elem hf) hp
    refine ⟨.arr vs, .arr gs, ?_, by simp [stdVal, h2], lrel_holds h3, marsh_arr (lrel_marsh h3)⟩
    cases xs with
    | nil =>
      have : o = false := by cases o <;> simp_all
      simp [importList] at h1
      subst h1
      simp [importVal, hf.omt, this, newArray]
    | cons x xs => simpa [importVal, RO.elem, newArray] using h1
  | .nilMap => by
    intro ex o q hf hp
    have hp : o = false := hp
    exact ⟨.null, .null, by simp [importVal, hf.omt, hp], rfl, .null, marsh_leaf trivial (by simp) (by simp)⟩
  | .map kvs => by
    intro ex o q hf hp
    obtain ⟨ho, hnd, hp⟩ := hp
    obtain ⟨w, L, ms, h1, h2, h3, h4⟩ := import_pairs hS hE kvs ex o q newObject [] hf hp objs_new (by simpa using hnd)
    refine ⟨w, .obj ms, ?_, by simp [stdVal, h2], objs_holds h3 h4, objs_marsh h3 (mrel_marsh h4)⟩
    cases kvs with
    | nil =>
      have : o = false := by cases o <;> simp_all
      simp [importPairs] at h1
      simp [importVal, hf.omt, this, h1]
    | cons x xs => simpa [importVal, RO.elem] using h1
  | .badMap => by intro ex o q hf hp; exact hp.elim
  | .nilPtr t => by
    intro ex o q hf hp
    have hp : o = false := hp
    exact ⟨.null, .null, by simp [importVal, hf.omt, hp], rfl, .null, marsh_leaf trivial (by simp) (by simp)⟩
  | .ptr x => by
    intro ex o q hf hp
    exact import_val hS hE x ex o q hf hp
  | .iface x => by
    intro ex o q hf hp
    exact import_val hS hE x ex o q hf hp
  | .struct fs => by
    intro ex o q hf hp
    obtain ⟨hp, hnd⟩ := hp
    obtain ⟨w, L, ms, h1, h2, h3, h4⟩ := import_fields hS hE fs ex .no 0 newObject [] hf.ign (by simp) hp objs_new (by simpa using hnd)
    refine ⟨w, .obj ms, by simpa [importVal] using h1, ?_, objs_holds h3 h4, objs_marsh h3 (mrel_marsh h4)⟩
    simp [stdVal, wins_nodup hnd, h2]
  | .jv v => by
    intro ex o q hf hp
    obtain ⟨h1, h2, hk⟩ := hp
    have h3 : v ≠ .nilp := h2 [] v rfl
    refine ⟨copied v, .val v, ?_, ?_, .val _ _ (copied_sameObs h2), copied_marsh h1 h2 hk⟩
    · rw [← deepCopy_copied]
      cases v <;> simp_all [importVal, parseDeepCopier]
    · cases v <;> simp_all [stdVal]
  | .marsh e out => by
    intro ex o q hf hp
    obtain ⟨b, j, rfl, hj, hn, ho⟩ := hp
    obtain ⟨v, hv, hd⟩ := C02_standard_json_partial E b j hj hn
    have hem : (o && emptyV v) = false := by
      cases o with
      | false => rfl
      | true =>
        simp only [fullDoc_kept hd (ho rfl), Bool.and_false]
    refine ⟨v, .raw b, ?_, rfl, .raw b j v hj hd, built_marshalable (.parsed b v (goUnmarshal_ok.1 hv).2)⟩
    simp [importVal, parseJSONMarshaler, hv, hf.omt, hem]
  | .text e out => by
    intro ex o q hf hp
    obtain ⟨s, rfl, ho⟩ := hp
    have : (s.isEmpty && o) = false := by cases o <;> simp_all
    refine ⟨.str s, .str s, ?_, rfl, .str s, marsh_leaf trivial (by simp) (by simp)⟩
    simp only [importVal, hf.omt, this]; rfl
  | .nilMarsh => by intro ex o q hf hp; exact hp.elim
  | .unsupported => by intro ex o q hf hp; exact hp.elim
termination_by structural x => x
theorem import_list (hS : GoodSort S) (hE : E.trimSpace [0x2D] = [0x2D]) : ∀ (xs : List GoVal) (ex : Ext) (q : Bool) (acc : List V), Fit ex om false q → PlainL E N F T om q xs →
    ∃ vs gs, importList E S F ex .no (.arr acc) xs = .ok (.arr (acc ++ vs)) ∧ stdList N om xs = some gs ∧ LRel E F T gs vs
  | [] => by
    intro ex q acc hf hp
    exact ⟨[], [], by simp [importList], rfl, .nil⟩
  | x :: xs => by
    intro ex q acc hf hp
    obtain ⟨v, g, h1, h2, h3, h4⟩ := import_val hS hE x ex false q hf hp.1
    obtain ⟨vs, gs, h5, h6, h7⟩ := import_list hS hE xs ex q (acc ++ [v]) hf hp.2
    refine ⟨v :: vs, g :: gs, ?_, by simp [stdList, h2, h6], .cons h3 h4 h7⟩
    simp only [importList, h1, mustAppend_arr]
    simpa using h5
termination_by structural xs => xs
theorem import_pairs (hS : GoodSort S) (hE : E.trimSpace [0x2D] = [0x2D]) : ∀ (ps : List GoPair) (ex : Ext) (o q : Bool) (v : V) (L : List (Bytes × V)), Fit ex om o q → PlainP E N F T om o q ps →
    Objs v L → (L.map Prod.fst ++ ps.map pairKey).Nodup →
    ∃ w L' ms, importPairs E S F ex .no v ps = .ok w ∧ stdPairs N om ps = some ms ∧ Objs w (L ++ L') ∧ MRel E F T L' ms
  | [] => by
    intro ex o q v L hf hp ho hn
    exact ⟨v, [], [], rfl, rfl, by simpa using ho, .nil⟩
  | p :: ps => by
    intro ex o q v L hf hp ho hn
    obtain ⟨c, k, g, h1, h2, h3, h4, h5⟩ := import_pair hS hE p ex o q hf hp.1
    rw [List.map_cons, h5] at hn
    have hk : k ∉ L.map Prod.fst := by
      intro hm
      exact (List.nodup_append.1 hn).2.2 k hm k (by simp) rfl
    obtain ⟨w1, hw1, ho1⟩ := mustSetKey_objs (E := E) ho hk (marsh_uninit h4)
    obtain ⟨w, L', ms, h6, h7, h8, h9⟩ := import_pairs hS hE ps ex o q w1 (L ++ [(k, c)]) hf hp.2 ho1 (by simpa using hn)
    refine ⟨w, (k, c) :: L', ⟨k, g⟩ :: ms, ?_, by simp [stdPairs, h2, h7], by simpa using h8, .cons h3 h4 h9⟩
    simp only [importPairs, h1, hw1]
    exact h6
termination_by structural ps => ps
theorem import_pair (hS : GoodSort S) (hE : E.trimSpace [0x2D] = [0x2D]) : ∀ (p : GoPair) (ex : Ext) (o q : Bool), Fit ex om o q → PlainPair E N F T om o q p →
    ∃ c k g, importPair E S F ex .no p = .ok (k, c) ∧ stdPair N om p = some ⟨k, g⟩ ∧ Holds E F T g c ∧ Marshalable c ∧ pairKey p = k
  | .mk k x => by
    intro ex o q hf hp
    obtain ⟨v, g, h1, h2, h3, h4⟩ := import_val hS hE x ex o q hf hp
    refine ⟨v, Spec.keyText k, g, ?_, by simp [stdPair, h2], h3, h4, rfl⟩
    simp only [importPair, h1, goKey_text]
    rfl
termination_by structural p => p
theorem import_fields (hS : GoodSort S) (hE : E.trimSpace [0x2D] = [0x2D]) : ∀ (fs : List GoField) (pex : Ext) (ro : RO) (d : Nat) (v : V) (L : List (Bytes × V)), pex.ignoreOmitempty = (!om) → ro ≠ .sticky →
    PlainFs E N F T om fs → Objs v L → (L.map Prod.fst ++ (stdCands N om d false fs).map Cand.name).Nodup →
    ∃ w L' ms, importFields E S F pex ro v fs = .ok w ∧ visible (stdCands N om d false fs) = some ms ∧ Objs w (L ++ L') ∧ MRel E F T L' ms
  | [] => by
    intro pex ro d v L hi hro hp ho hn
    exact ⟨v, [], [], rfl, rfl, by simpa using ho, .nil⟩
  | f :: fs => by
    intro pex ro d v L hi hro hp ho hn
    rw [stdCands, List.map_append] at hn
    have hn1 : ((stdCand N om d false f).map Cand.name).Nodup := (List.nodup_append.1 (List.nodup_append.1 hn).2.1).1
    obtain ⟨l, L1, ms1, h1, h2, h3, h4⟩ := import_field hS hE f pex ro d hi hro hp.1 hn1
    have hsub : (L1.map Prod.fst).Sublist ((stdCand N om d false f).map Cand.name) := by
      rw [mrel_keys h4]; exact visible_names h3
    have hnl : ((L ++ l).map Prod.fst).Nodup := by
      rw [List.map_append]
      refine ((h2.map Prod.fst).append_left _).nodup_iff.2 ?_
      refine List.Nodup.sublist ((List.Sublist.refl _).append (hsub.trans ?_)) hn
      exact List.sublist_append_left _ _
    have hul : ∀ p ∈ l, p.2.uninit = false := fun p hm => mrel_uninit h4 p (h2.mem_iff.1 hm)
    obtain ⟨w1, hw1, ho1⟩ := mustSetAll_objs (E := E) ho hnl hul
    have ho2 : Objs w1 (L ++ L1) := objs_perm ho1 (h2.append_left _)
    obtain ⟨w, L2, ms2, h5, h6, h7, h8⟩ := import_fields hS hE fs pex ro d w1 (L ++ L1) hi hro hp.2 ho2 (by
      rw [List.map_append, List.append_assoc]
      exact List.Nodup.sublist ((List.Sublist.refl _).append (hsub.append (List.Sublist.refl _))) hn)
    refine ⟨w, L1 ++ L2, ms1 ++ ms2, ?_, ?_, by simpa using h7, mrel_append h4 h8⟩
    · simp only [importFields, h1, hw1]
      exact h5
    · rw [stdCands]; exact visible_append h3 h6
termination_by structural fs => fs
theorem import_field (hS : GoodSort S) (hE : E.trimSpace [0x2D] = [0x2D]) : ∀ (f : GoField) (pex : Ext) (ro : RO) (d : Nat), pex.ignoreOmitempty = (!om) → ro ≠ .sticky →
    PlainF E N F T om f → ((stdCand N om d false f).map Cand.name).Nodup →
    ∃ l L' ms, importField E S F pex ro f = .ok l ∧ l.Perm L' ∧ visible (stdCand N om d false f) = some ms ∧ MRel E F T L' ms
  | .mk name tag false exported x => by
    intro pex ro d hi hro hp hn
    have hx := import_val hS hE x
    rcases hp with hp | hp | ⟨ht, hp⟩
    · subst hp
      refine ⟨[], [], [], ?_, .nil, by simp [stdCand, visible], .nil⟩
      cases ro <;> simp [importField, RO.field]
    · subst hp
      refine ⟨[], [], [], ?_, .nil, ?_, .nil⟩
      · simp only [importField, readFieldTag_dash hE]
        simp
      · simp [stdCand, visible]
    · cases exported with
      | false =>
        refine ⟨[], [], [], ?_, .nil, by simp [stdCand, visible], .nil⟩
        cases ro <;> simp [importField, RO.field]
      | true =>
        have hro' : ro.field false true = .no := by cases ro <;> simp_all [RO.field]
        have hfit := ext_fit (ex := (readFieldTag E name tag pex).2) hi (by rw [readFieldTag_ok ht])
        have hcand : stdCand N om d false (.mk name tag false true x) = [fieldCand N om tag x d (if tagName tag = [] then name else tagName tag) (tagName tag ≠ [])] := by
          simp only [stdCand, tagOK_std ht, tagOK_ne_dash ht]
          simp [fieldCand]
        obtain ⟨c, ms, L, h1, h2, h3, h4⟩ := good_field (name := name) (tag := tag) hx _ d hfit (if tagName tag = [] then name else tagName tag) (tagName tag ≠ []) hp
        rw [hcand]
        refine ⟨L, L, ms, ?_, .refl _, h2, h3⟩
        have hnm : (readFieldTag E name tag pex).1 = if tagName tag = [] then name else tagName tag := by rw [readFieldTag_ok ht]
        simp only [importField, hro', h1, hnm, tagOK_name ht]
        rcases h4 with ⟨rfl, rfl⟩ | ⟨hu, rfl, -⟩
        · rfl
        · have hu := marsh_uninit hu
          have : isNil c = false := by cases c <;> simp_all [V.uninit, isNil]
          simp [this]
  | .mk name tag true exported x => by
    intro pex ro d hi hro hp hn
    have hx := import_val hS hE x
    have he := import_emb hS hE x
    rcases hp with hp | ⟨ht, hp⟩
    · subst hp
      refine ⟨[], [], [], ?_, .nil, ?_, .nil⟩
      · have : (readAnonymousFieldTag E name [0x2D] pex).1 = [0x2D] := readFieldTag_dash hE name pex
        simp only [importField, this]
        simp
      · simp [stdCand, visible]
    · have hnm : (readAnonymousFieldTag E name tag pex).1 = if tagName tag = [] then name else tagName tag := by rw [readAnonymousFieldTag_ok ht]
      rcases hp with ⟨htn, hp⟩ | ⟨rfl, hup, hemb, hno, hp⟩ | ⟨rfl, hup, hq, hptr⟩
      · have hro' : ro.field true exported ≠ .sticky := by cases ro <;> cases exported <;> simp_all [RO.field]
        have hig : (readAnonymousFieldTag E name tag pex).2.ignoreOmitempty = !om := by rw [readAnonymousFieldTag_ok ht]; exact hi
        have hom : Ext.omit (readAnonymousFieldTag E name tag pex).2 = (om && (tagHas tag omitemptyWord || !upper name)) := by
          rw [readAnonymousFieldTag_ok ht]; cases om <;> simp [Ext.omit, hi]
        obtain ⟨cs, hcs, hrest⟩ := he (readAnonymousFieldTag E name tag pex).2 (ro.field true exported) d _ true hig hro' hp
        have hcand : stdCand N om d false (.mk name tag true exported x) = cs := by
          simp only [stdCand, tagOK_std ht, tagOK_ne_dash ht, hcs, htn]
          simp
        rw [hcand] at hn ⊢
        rcases hrest with ⟨hnp, hdrop, hv⟩ | ⟨hnp, hr⟩
        · refine ⟨[], [], [], ?_, .nil, hv, .nil⟩
          simp only [importField, hnm, tagOK_name ht, hnp, hom, hdrop]
          simp
        · obtain ⟨v, L', ms, h1, h2, h3, h4⟩ := hr hn
          obtain ⟨l, hl, hlp⟩ := objs_members hS h3
          refine ⟨l, L', ms, ?_, hlp, h2, h4⟩
          simp only [importField, hnm, tagOK_name ht, hnp]
          simp only [h1]
          obtain ⟨n, kvs, rfl, -, -⟩ := h3
          exact hl
      · have hro' : ro.field true true = .no := by cases ro <;> simp_all [RO.field]
        have hex : (readAnonymousFieldTag E name tag pex).2 = { omitempty := tagHas tag omitemptyWord, toString := tagHas tag stringWord, ignoreOmitempty := pex.ignoreOmitempty } := by
          rw [readAnonymousFieldTag_ok ht]; simp [hup]
        have hfit := ext_fit hi hex
        have hcand : stdCand N om d false (.mk name tag true true x) = [fieldCand N om tag x d (if tagName tag = [] then name else tagName tag) (tagName tag ≠ [])] := by
          simp only [stdCand, tagOK_std ht, tagOK_ne_dash ht, emb_none_depth 0 d false false true x hemb]
          simp [fieldCand]
        obtain ⟨c, ms, L, h1, h2, h3, h4⟩ := good_field (name := name) (tag := tag) hx _ d hfit (if tagName tag = [] then name else tagName tag) (tagName tag ≠ []) hp
        rw [hcand]
        refine ⟨L, L, ms, ?_, .refl _, h2, h3⟩
        simp only [importField, hnm, tagOK_name ht, hro', h1]
        by_cases hnp : isNilPtr x = true
        · obtain ⟨t, rfl⟩ := nilPtr_of hno hnp
          have h5 : (if (om && tagHas tag omitemptyWord) = true then V.nilp else V.null) = c := by
            simpa [importVal, hfit.omt] using h1
          simp only [hnp, hfit.omt]
          by_cases ho : (om && tagHas tag omitemptyWord) = true
          · rw [if_pos ho] at h5
            rcases h4 with ⟨-, rfl⟩ | ⟨hu, -, -⟩
            · simp [ho]
            · rw [← h5] at hu; exact absurd (marsh_uninit hu) (by simp [V.uninit])
          · rw [if_neg ho] at h5
            rcases h4 with ⟨rfl, -⟩ | ⟨-, rfl, -⟩
            · cases h5
            · simp [ho, h5]
        · simp only [hnp]
          rcases h4 with ⟨rfl, rfl⟩ | ⟨hu, rfl, hob⟩
          · rfl
          · have hob := hob hno
            have hu := marsh_uninit hu
            cases c with
            | obj n kvs low => exact absurd rfl (hob n kvs low)
            | nilp => simp [V.uninit] at hu
            | notExist => simp [V.uninit] at hu
            | _ => simp [anonMembers, hfit.priv]
      · clear hx he
        refine ⟨[], [], [], ?_, .nil, ?_, .nil⟩
        · have hpriv : (readAnonymousFieldTag E name tag pex).2.isPrivate = true := by rw [readAnonymousFieldTag_ok ht]; simp [hup]
          have hnp : isNilPtr x = false := by
            cases x <;> first | rfl | exact absurd hq (by simp [quotable]) 
          simp only [importField, hnm, tagOK_name ht, hnp]
          generalize readAnonymousFieldTag E name tag pex = fx at *
          obtain ⟨c, hc, hob⟩ := quotable_import (E := E) (S := S) (F := F) fx.2 (ro.field true false) hq hptr
          simp [hc]
          cases c with
          | obj n kvs low => exact absurd rfl (hob n kvs low)
          | nilp => rfl
          | notExist => rfl
          | _ => simp [anonMembers, hpriv]
        · have hemb : stdEmb N om d false true x = none := by
            cases x with
            | ptr y => exact absurd rfl (hptr y)
            | _ => first | rfl | exact absurd hq (by simp [quotable])
          simp [stdCand, hemb, visible]
termination_by structural f => f
theorem import_emb (hS : GoodSort S) (hE : E.trimSpace [0x2D] = [0x2D]) : ∀ (x : GoVal) (ex : Ext) (ro : RO) (d : Nat) (drop b : Bool), ex.ignoreOmitempty = (!om) → ro ≠ .sticky →
    PlainE E N F T om drop b x → ∃ cs, stdEmb N om d false b x = some cs ∧
      ((isNilPtr x = true ∧ drop = true ∧ visible cs = some []) ∨
       (isNilPtr x = false ∧ ((cs.map Cand.name).Nodup → ∃ v L' ms, importVal E S F ex ro x = .ok v ∧ visible cs = some ms ∧ Objs v L' ∧ MRel E F T L' ms)))
  | .struct fs => by
    intro ex ro d drop b hi hro hp
    refine ⟨_, rfl, .inr ⟨rfl, fun hn => ?_⟩⟩
    obtain ⟨w, L', ms, h1, h2, h3, h4⟩ := import_fields hS hE fs ex ro (d + 1) newObject [] hi hro hp objs_new (by simpa using hn)
    exact ⟨w, L', ms, h1, h2, by simpa using h3, h4⟩
  | .ptr x => by
    intro ex ro d drop b hi hro hp
    obtain ⟨rfl, hp⟩ := hp
    obtain ⟨cs, h1, h2⟩ := import_emb hS hE x ex ro d drop false hi hro hp
    refine ⟨cs, by simpa [stdEmb] using h1, .inr ⟨rfl, ?_⟩⟩
    rcases h2 with ⟨h3, -, -⟩ | ⟨-, h3⟩
    · cases x <;> simp_all [isNilPtr, PlainE]
    · exact h3
  | .nilPtr t => by
    intro ex ro d drop b hi hro hp
    obtain ⟨rfl, hd, fs, rfl⟩ := hp
    exact ⟨stdCands N om (d + 1) true fs, rfl, .inl ⟨rfl, hd, visible_hidden (cands_hidden (d + 1) fs)⟩⟩
  | .invalid => by intro _ _ _ _ _ _ _ hp; exact hp.elim
  | .bool _ => by intro _ _ _ _ _ _ _ hp; exact hp.elim
  | .int _ => by intro _ _ _ _ _ _ _ hp; exact hp.elim
  | .uint _ => by intro _ _ _ _ _ _ _ hp; exact hp.elim
  | .flt _ _ => by intro _ _ _ _ _ _ _ hp; exact hp.elim
  | .str _ => by intro _ _ _ _ _ _ _ hp; exact hp.elim
  | .bytes _ _ => by intro _ _ _ _ _ _ _ hp; exact hp.elim
  | .arr _ => by intro _ _ _ _ _ _ _ hp; exact hp.elim
  | .nilSlice => by intro _ _ _ _ _ _ _ hp; exact hp.elim
  | .slice _ => by intro _ _ _ _ _ _ _ hp; exact hp.elim
  | .nilMap => by intro _ _ _ _ _ _ _ hp; exact hp.elim
  | .map _ => by intro _ _ _ _ _ _ _ hp; exact hp.elim
  | .badMap => by intro _ _ _ _ _ _ _ hp; exact hp.elim
  | .iface _ => by intro _ _ _ _ _ _ _ hp; exact hp.elim
  | .jv _ => by intro _ _ _ _ _ _ _ hp; exact hp.elim
  | .marsh _ _ => by intro _ _ _ _ _ _ _ hp; exact hp.elim
  | .text _ _ => by intro _ _ _ _ _ _ _ hp; exact hp.elim
  | .nilMarsh => by intro _ _ _ _ _ _ _ hp; exact hp.elim
  | .unsupported => by intro _ _ _ _ _ _ _ hp; exact hp.elim
termination_by structural x => x
end

end JV
