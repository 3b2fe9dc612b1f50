import Verif.Proofs.Escape
import Verif.Proofs.Sort
import Verif.Proofs.Hered
/-! What Marshal writes, as a document of tokens. -/
namespace JV
open Spec

/-- induction over the children of a value -/
def Kid (v c : V) : Prop :=
  match v with
  | .arr xs => c ∈ xs
  | .obj _ kvs _ => ∃ e ∈ kvs, e.v = c
  | _ => False

theorem kid_sizeOf {v c : V} (h : Kid v c) : sizeOf c < sizeOf v := by
  cases v with
  | arr xs => have := List.sizeOf_lt_of_mem h; simp only [V.arr.sizeOf_spec]; omega
  | obj n kvs low =>
    obtain ⟨⟨k, i, w⟩, he, rfl⟩ := h
    have := List.sizeOf_lt_of_mem he
    simp only [Ent.mk.sizeOf_spec, V.obj.sizeOf_spec, Ent.v] at *
    omega
  | _ => cases h

theorem kid_ind {motive : V → Prop} (step : ∀ v, (∀ c, Kid v c → motive c) → motive v) (v : V) : motive v :=
  step v fun c _ => kid_ind step c
termination_by sizeOf v
decreasing_by exact kid_sizeOf ‹_›

theorem lookup_mem_nodup {kvs : List Ent} (hn : (kvs.map Ent.key).Nodup) {e : Ent} (he : e ∈ kvs) : lookup e.key kvs = some e := by
  induction kvs with
  | nil => cases he
  | cons a kvs ih =>
    unfold lookup
    rw [List.map_cons, List.nodup_cons] at hn
    rcases List.mem_cons.1 he with rfl | he
    · simp
    · rw [if_neg, ih hn.2 he]
      intro h; exact hn.1 (h ▸ List.mem_map_of_mem he)

theorem kid_child {v c : V} (hn : KeysNodup v) (h : Kid v c) : ∃ s, v.child s = some c := by
  cases v with
  | arr xs =>
    obtain ⟨i, hi⟩ := List.mem_iff_getElem?.1 h
    exact ⟨.idx i, by simp [V.child, hi]⟩
  | obj n kvs low =>
    obtain ⟨e, he, rfl⟩ := h
    exact ⟨.key e.key, by simp [V.child, lookup_mem_nodup hn he]⟩
  | _ => cases h

theorem her_kid {P : V → Prop} {v c : V} (hk : Her KeysNodup v) (h : Her P v) (hc : Kid v c) : Her P c := by
  obtain ⟨s, hs⟩ := kid_child ((her_iff.1 hk).1) hc
  exact (her_iff.1 h).2 s c hs

theorem her_self {P : V → Prop} {v : V} (h : Her P v) : P v := (her_iff.1 h).1

/-! ### numbers -/

/-- text for a special number, empty when it is refused -/
def specText (E : Env) (o : Opt) (T : Escaper) : Special → Bytes
  | .nan =>
    if o.nanType = 1 then if !isValidFloat o.nanToFloat then [] else E.jsonFloat o.nanToFloat
    else if o.nanType = 2 then nullText
    else if o.nanType = 3 then
      if o.nanToString = [] then [0x22, 0x4E, 0x61, 0x4E, 0x22] else 0x22 :: escText T o.nanToString ++ [0x22]
    else []
  | .infP =>
    if o.infType = 1 then if !isValidFloat o.infToFloat then [] else E.jsonFloat o.infToFloat
    else if o.infType = 2 then nullText
    else if o.infType = 3 then
      if o.infPos = [] then [0x22, 0x2B, 0x49, 0x6E, 0x66, 0x22] else 0x22 :: escText T o.infPos ++ [0x22]
    else []
  | .infN =>
    if o.infType = 1 then if !isValidFloat o.infToFloat then [] else E.jsonFloat (fneg o.infToFloat)
    else if o.infType = 2 then nullText
    else if o.infType = 3 then
      if o.infNeg = [] ∧ o.infPos = [] then [0x22, 0x2D, 0x49, 0x6E, 0x66, 0x22] else 0x22 :: escText T (infNegString o) ++ [0x22]
    else []

def specErr (o : Opt) : Special → Option Err
  | .nan =>
    if o.nanType = 1 then if !isValidFloat o.nanToFloat then some .unsupportedFloatInOpt else none
    else if o.nanType = 2 then none
    else if o.nanType = 3 then none
    else some .unsupportedFloat
  | _ =>
    if o.infType = 1 then if !isValidFloat o.infToFloat then some .unsupportedFloatInOpt else none
    else if o.infType = 2 then none
    else if o.infType = 3 then none
    else some .unsupportedFloat

def numText (E : Env) (o : Opt) (T : Escaper) (src : Bytes) (n : Num) : Bytes :=
  match special src n with
  | none => src
  | some s => specText E o T s

/-- the error Marshal reports for the value itself -/
def errOf (o : Opt) : V → Option Err
  | .num src n => match special src n with
    | none => none
    | some s => specErr o s
  | _ => none

theorem MSt.w_w (st : MSt) (a b : Bytes) : (st.w a).w b = st.w (a ++ b) := by simp [MSt.w]
theorem MSt.w_nil (st : MSt) : st.w [] = st := by simp [MSt.w]
theorem MSt.w_cnt (st : MSt) (a : Bytes) : (st.w a).cnt = st.cnt := rfl
theorem MSt.w_buf (st : MSt) (a : Bytes) : (st.w a).buf = st.buf ++ a := rfl

variable {E : Env} {S : SortFn} {o : Opt} {T : Escaper}

theorem escapeString_some (s : Bytes) : escapeString (some T) s = .ok (escText T s) := rfl

theorem writeEscaped_eq (hT : o.escaper = some T) (s : Bytes) (st : MSt) : writeEscaped o s st = .ok (st.w (escText T s)) := by
  unfold writeEscaped; rw [hT, escapeString_some]; rfl

theorem writeQuoted_eq (hT : o.escaper = some T) (s : Bytes) (st : MSt) : writeQuoted o s st = .ok (st.w (0x22 :: escText T s ++ [0x22])) := by
  unfold writeQuoted; rw [writeEscaped_eq hT]
  simp [MSt.w]

theorem marshalNumber_eq (hT : o.escaper = some T) (src : Bytes) (n : Num) (st : MSt) :
    marshalNumber E o src n st = .ok (st.w (numText E o T src n), errOf o (.num src n)) := by
  unfold marshalNumber numText errOf special
  cases src with
  | cons c src => simp
  | nil =>
    simp only [List.length_nil, gt_iff_lt, Nat.lt_irrefl, if_false, ne_eq, not_true]
    by_cases h1 : isInfP n.f64 = true
    · simp only [h1, if_true, marshalInfP, specText, specErr]
      by_cases c1 : o.infType = 1
      · simp only [c1, if_true]; by_cases c2 : (!isValidFloat o.infToFloat) = true <;> simp [c2, MSt.w_nil]
      by_cases c2 : o.infType = 2
      · simp [c2]
      by_cases c3 : o.infType = 3
      · simp only [c3]; by_cases c4 : o.infPos = [] <;> simp [c4, writeQuoted_eq hT]
      · simp [c1, c2, c3, MSt.w_nil]
    simp only [h1, Bool.false_eq_true, if_false]
    by_cases h2 : isInfN n.f64 = true
    · simp only [h2, if_true, marshalInfN, specText, specErr]
      by_cases c1 : o.infType = 1
      · simp only [c1, if_true]; by_cases c2 : (!isValidFloat o.infToFloat) = true <;> simp [c2, MSt.w_nil]
      by_cases c2 : o.infType = 2
      · simp [c2]
      by_cases c3 : o.infType = 3
      · simp only [c3]; by_cases c4 : o.infNeg = [] ∧ o.infPos = [] <;> simp [c4, writeQuoted_eq hT, MSt.w_w]
      · simp [c1, c2, c3, MSt.w_nil]
    simp only [h2, Bool.false_eq_true, if_false, marshalNaN, specText, specErr]
    by_cases c1 : o.nanType = 1
    · simp only [c1, if_true]; by_cases c2 : (!isValidFloat o.nanToFloat) = true <;> simp [c2, MSt.w_nil]
    by_cases c2 : o.nanType = 2
    · simp [c2]
    by_cases c3 : o.nanType = 3
    · simp only [c3]; by_cases c4 : o.nanToString = [] <;> simp [c4, writeQuoted_eq hT]
    · simp [c1, c2, c3, MSt.w_nil]

/-! ### order of members -/

/-- the members in the order in which they are written -/
def sorted (S : SortFn) (o : Opt) (par : Option ParentInfo) (kvs : List Ent) : List Ent := (sortMembers S o par kvs (kvs.map fun e => (e, ()))).map Prod.fst

theorem sortMembers_map (S : SortFn) (o : Opt) (par : Option ParentInfo) (kvs : List Ent) {β : Type} (g : Ent → β) :
    sortMembers S o par kvs (kvs.map fun e => (e, g e)) = (sorted S o par kvs).map fun e => (e, g e) := by
  have key : ∀ less : Ent → Ent → Bool, sortBy S (fun a b : Ent × β => less a.1 b.1) (kvs.map fun e => (e, g e)) =
      ((sortBy S (fun a b : Ent × Unit => less a.1 b.1) (kvs.map fun e => (e, ()))).map Prod.fst).map fun e => (e, g e) := by
    intro less
    rw [sortBy_map S (fun e => (e, g e)), sortBy_map S (fun e => (e, ()))]
    simp
  unfold sorted sortMembers
  cases o.lessFunc with
  | some less => exact key fun a b => less par a.key b.key a.v b.v
  | none =>
    simp only
    split
    · exact key fun a b => seqLess o.sequence a.key b.key
    split
    · exact key fun a b => seqLess (idMap kvs) a.key b.key
    · simp

theorem sorted_mem {par : Option ParentInfo} {kvs : List Ent} {e : Ent} (h : e ∈ sorted S o par kvs) : e ∈ kvs := by
  unfold sorted at h
  obtain ⟨⟨e', u⟩, h1, rfl⟩ := List.mem_map.1 h
  have : ∀ l : List (Ent × Unit), (e', ()) ∈ sortMembers S o par kvs l → (e', ()) ∈ l := by
    intro l h
    unfold sortMembers at h
    split at h
    · exact sortBy_mem h
    split at h
    · exact sortBy_mem h
    split at h
    · exact sortBy_mem h
    · exact h
  have := this _ h1
  simpa using this

theorem map_fst_unit {α : Type} (l : List α) : (l.map fun e => (e, ())).map Prod.fst = l := by
  rw [List.map_map]; exact List.map_id l

theorem sorted_perm (hS : GoodSort S) (par : Option ParentInfo) (kvs : List Ent) : (sorted S o par kvs).Perm kvs := by
  have : (sortMembers S o par kvs (kvs.map fun e => (e, ()))).Perm (kvs.map fun e => (e, ())) := by
    unfold sortMembers
    split
    · exact sortBy_perm hS _ _
    split
    · exact sortBy_perm hS _ _
    split
    · exact sortBy_perm hS _ _
    · exact .refl _
  have := this.map Prod.fst
  unfold sorted
  rwa [map_fst_unit] at this

/-- the member order for each kind of option -/
theorem sorted_eq (par : Option ParentInfo) (kvs : List Ent) : sorted S o par kvs = match o.lessFunc with
    | some less => sortBy S (fun a b => less par a.key b.key a.v b.v) kvs
    | none => if o.keySeq.length > 0 then sortBy S (fun a b => seqLess o.sequence a.key b.key) kvs
      else if o.bySetSeq then sortBy S (fun a b => seqLess (idMap kvs) a.key b.key) kvs
      else kvs := by
  unfold sorted sortMembers
  cases o.lessFunc with
  | some less => simp only [sortBy_map, map_fst_unit]
  | none =>
    simp only
    split
    · simp only [sortBy_map, map_fst_unit]
    split
    · simp only [sortBy_map, map_fst_unit]
    · exact map_fst_unit _

/-! ### the document -/

def docMems (o : Opt) (T : Escaper) (par : Option ParentInfo) : Bool → List (Ent × (Option ParentInfo → Doc)) → List DMem
  | _, [] => []
  | fw, (e, d) :: ms =>
    if isNullV e.v && o.omitNull then docMems o T par false ms
    else ⟨fw, escText T e.key, d (if o.lessFunc.isSome then some (newParentInfo e.v par (stringKey e.key)) else none)⟩ :: docMems o T par true ms

mutual
def doc (E : Env) (S : SortFn) (o : Opt) (T : Escaper) : V → Option ParentInfo → Doc
  | .nilp => fun _ => .leaf []
  | .notExist => fun _ => .leaf []
  | .str s => fun _ => .leaf (0x22 :: escText T s ++ [0x22])
  | .num src n => fun _ => .leaf (numText E o T src n)
  | .bool b => fun _ => .leaf (formatBool b)
  | .null => fun _ => .leaf nullText
  | .arr xs => fun par => if xs.length = 0 then .leaf [0x5B, 0x5D] else .arr (docElems E S o T (.arr xs) xs 0 par)
  | .obj _ kvs _ => fun par =>
    if kvs.length = 0 then .leaf [0x7B, 0x7D] else .obj (docMems o T par false (sortMembers S o par kvs (memberDocs E S o T kvs)))
def docElems (E : Env) (S : SortFn) (o : Opt) (T : Escaper) (v : V) : List V → Nat → Option ParentInfo → List Doc
  | [], _, _ => []
  | x :: xs, i, par => doc E S o T x (if o.lessFunc.isSome then some (newParentInfo v par (intKey i)) else none) :: docElems E S o T v xs (i + 1) par
def memberDocs (E : Env) (S : SortFn) (o : Opt) (T : Escaper) : List Ent → List (Ent × (Option ParentInfo → Doc))
  | [] => []
  | ⟨k, i, v⟩ :: es => (⟨k, i, v⟩, doc E S o T v) :: memberDocs E S o T es
end

theorem memberDocs_map (kvs : List Ent) : memberDocs E S o T kvs = kvs.map fun e => (e, doc E S o T e.v) := by
  induction kvs with
  | nil => simp [memberDocs]
  | cons e kvs ih => obtain ⟨k, i, v⟩ := e; simp [memberDocs, ih]

theorem memberWriters_map (kvs : List Ent) : memberWriters E S o kvs = kvs.map fun e => (e, marshalTo E S o e.v) := by
  induction kvs with
  | nil => simp [memberWriters]
  | cons e kvs ih => obtain ⟨k, i, v⟩ := e; simp [memberWriters, ih]

theorem doc_obj (n kvs low) (par : Option ParentInfo) (h : kvs ≠ []) :
    doc E S o T (.obj n kvs low) par = .obj (docMems o T par false ((sorted S o par kvs).map fun e => (e, doc E S o T e.v))) := by
  rw [← sortMembers_map, ← memberDocs_map]
  conv => lhs; unfold doc
  rw [if_neg (by simpa using h)]

theorem newLine_eq (st : MSt) : newLine o st = st.w (nl o.indent st.cnt) := by
  unfold newLine nl
  match o.indent with
  | none => exact (MSt.w_nil st).symm
  | some (pre, ind) => simp [writeIndent, MSt.w_w, MSt.w_cnt]

/-- what it means that the function writes this document -/
def Writes (o : Opt) (wr : Writer) (d : Option ParentInfo → Doc) (e : Option Err) : Prop :=
  ∀ par st, wr par st = .ok (st.w ((d par).print o.indent st.cnt), e)

theorem elems_write (hv : V) : ∀ (xs : List V) (i : Nat) (par : Option ParentInfo) (st : MSt), (∀ x ∈ xs, ∃ e, Writes o (marshalTo E S o x) (doc E S o T x) e) →
    marshalElems E S o hv xs i par st = .ok (st.w (printElems o.indent st.cnt (decide (i = 0)) (docElems E S o T hv xs i par)))
  | [], i, par, st, _ => by unfold marshalElems docElems printElems; rw [MSt.w_nil]
  | x :: xs, i, par, st, h => by
    obtain ⟨e, hx⟩ := h x (by simp)
    unfold marshalElems docElems printElems
    simp only [newLine_eq, hx _ _, R.bind_ok]
    rw [elems_write hv xs (i + 1) par _ fun y hy => h y (by simp [hy])]
    have hs : ∀ b : Bool, (if b then st.w [0x2C] else st) = st.w (if b then [0x2C] else []) := by intro b; cases b <;> simp [MSt.w_nil]
    by_cases hi : i = 0
    · subst hi
      simp [MSt.w_w, MSt.w_cnt]
    · have h0 : i > 0 := by omega
      simp [hi, h0, MSt.w_w, MSt.w_cnt]

theorem writeMember_eq (hT : o.escaper = some T) {e : Ent} {wr : Writer} {d : Option ParentInfo → Doc} {er : Option Err} (hne : e.v ≠ .nilp)
    (h : Writes o wr d er) (par : Option ParentInfo) (first : Bool) (st : MSt) :
    writeMember o par first e wr st = if isNullV e.v && o.omitNull then .ok (st, false)
      else .ok (st.w ((if first then [] else [0x2C]) ++ nl o.indent st.cnt ++ 0x22 :: (escText T e.key ++ 0x22 :: 0x3A :: ((if o.indent.isSome then [0x20] else []) ++
        (d par).print o.indent st.cnt))), true) := by
  unfold writeMember
  split
  · exact absurd (by assumption) hne
  · rename_i hv
    split
    · rfl
    simp only [newLine_eq, writeEscaped_eq hT, R.bind_ok, h _ _, R.pure_eq, MSt.w_w, MSt.w_cnt]
    cases first <;> cases o.indent.isSome <;> simp [MSt.w_w, MSt.w_cnt]

theorem mems_write (hT : o.escaper = some T) (par : Option ParentInfo) : ∀ (es : List Ent) (fw : Bool) (st : MSt),
    (∀ e ∈ es, e.v ≠ .nilp) → (∀ e ∈ es, ∃ er, Writes o (marshalTo E S o e.v) (doc E S o T e.v) er) →
    writeMembers o par fw (es.map fun e => (e, marshalTo E S o e.v)) st =
      .ok (st.w (printMems o.indent st.cnt (docMems o T par fw (es.map fun e => (e, doc E S o T e.v)))))
  | [], fw, st, _, _ => by simp [writeMembers, docMems, printMems, MSt.w_nil]
  | e :: es, fw, st, hn, h => by
    obtain ⟨er, he⟩ := h e (by simp)
    simp only [List.map_cons, writeMembers, docMems]
    rw [writeMember_eq hT (hn e (by simp)) he]
    by_cases hc : (isNullV e.v && o.omitNull) = true
    · simp only [hc, if_true, R.bind_ok]
      exact mems_write hT par es false st (fun x hx => hn x (by simp [hx])) fun x hx => h x (by simp [hx])
    · rw [if_neg hc, if_neg hc]
      simp only [R.bind_ok]
      rw [mems_write hT par es true _ (fun x hx => hn x (by simp [hx])) fun x hx => h x (by simp [hx])]
      simp only [printMems, MSt.w_w, MSt.w_cnt]
      cases fw <;> simp

/-- Marshal writes the document of the value and leaves the indentation counter as it was. -/
theorem marshalTo_writes (hT : o.escaper = some T) (v : V) (hk : Her KeysNodup v) (hn : NoNil v) : Writes o (marshalTo E S o v) (doc E S o T v) (errOf o v) := by
  induction v using kid_ind with
  | step v ih =>
    have ih : ∀ c, Kid v c → Writes o (marshalTo E S o c) (doc E S o T c) (errOf o c) := by
      intro c hc
      refine ih c hc (her_kid hk hk hc) ?_
      have : Her (· ≠ .nilp) v := fun l c hl => by rintro rfl; exact hn l hl
      have := her_kid hk this hc
      intro l hl; exact this l _ hl rfl
    have hself : v ≠ .nilp := fun h => hn [] (by rw [h]; rfl)
    have hkid : ∀ c, Kid v c → c ≠ .nilp := by
      intro c hc he
      obtain ⟨s, hs⟩ := kid_child (her_self hk) hc
      exact hn [s] (by simp [V.at, hs, he])
    intro par st
    cases v with
    | nilp => exact absurd rfl hself
    | notExist => simp [marshalTo, doc, Doc.print, errOf, MSt.w_nil]
    | str s => simp [marshalTo, doc, Doc.print, errOf, writeQuoted_eq hT]
    | num src n => unfold marshalTo doc Doc.print; exact marshalNumber_eq hT src n st
    | bool b => simp [marshalTo, doc, Doc.print, errOf]
    | null => simp [marshalTo, doc, Doc.print, errOf]
    | arr xs =>
      conv => lhs; unfold marshalTo
      conv => rhs; unfold doc
      split
      · simp [Doc.print, errOf]
      · simp only
        rw [elems_write _ xs 0 par _ fun x hx => ⟨_, ih x hx⟩]
        simp [Doc.print, errOf, newLine_eq, MSt.w, MSt.w_cnt]
    | obj n kvs low =>
      by_cases h0 : kvs = []
      · subst h0; simp [marshalTo, doc, Doc.print, errOf]
      · rw [doc_obj _ _ _ _ h0]
        conv => lhs; unfold marshalTo
        rw [if_neg (by simpa using h0), memberWriters_map, sortMembers_map]
        simp only
        rw [mems_write hT par _ false _ (fun e he => hkid _ ⟨e, sorted_mem he, rfl⟩) fun e he => ⟨_, ih _ ⟨e, sorted_mem he, rfl⟩⟩]
        simp [Doc.print, errOf, newLine_eq, MSt.w, MSt.w_cnt]

end JV
