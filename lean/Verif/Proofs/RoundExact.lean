import Verif.Proofs.Stable
import Verif.Proofs.ExactMore
import Verif.Proofs.Exact
/-! Exactly which values survive Marshal and Unmarshal. -/
namespace JV
open Spec

variable {E : Env}

/-! ### number texts of built values -/

/-- no text at all, or the shape of a number token -/
def NumShape : V → Prop
  | .num src _ => src = [] ∨ (∃ c u, src = c :: u ∧ (Digit c ∨ c = 0x2D)) ∧ ∀ c ∈ src, NumChar c
  | _ => True

theorem closed_numShape (E : Env) : Closed E NumShape where
  put := fun v s d h => by
    match v, s, h with
    | .obj n kvs low, .key k, h => trivial
    | .obj n kvs low, .idx k, h => trivial
    | .arr xs, .key k, h => trivial
    | .arr xs, .idx i, h => trivial
    | .nilp, _, h => exact h
    | .notExist, _, h => exact h
    | .str _, _, h => exact h
    | .num _ _, _, h => exact h
    | .bool _, _, h => exact h
    | .null, _, h => exact h
  arr := fun _ => trivial
  obj0 := trivial
  setKey := fun n kvs low k c h => trivial
  del := fun n kvs low k h => trivial
  low := fun cl n kvs low k h => trivial

theorem her_unmarshal_numShape {s : Bytes} {v : V} (h : unmarshal E s = .ok v) : Her NumShape v := by
  intro l c hc
  cases c with
  | num src n => exact .inr (numTok_shape E _ (reads_numTok (unmarshal_nums h l _ hc src n rfl)))
  | _ => trivial

theorem numShape_deepCopy (w : V) (h : NumShape w) : NumShape (deepCopy w) := by
  cases w <;> first | exact h | trivial

theorem built_numShape {L : V → Prop} (hL : ∀ v, L v → NumShape v) {v : V} (h : Built E L v) : Her (fun v => GoodNode E v ∧ NumShape v) v := by
  have hP := (closed_good E).and (closed_numShape E)
  induction h with
  | scalar v hs hl =>
    rw [her_iff]
    cases v with
    | obj _ _ _ => exact absurd hs id
    | arr _ => exact absurd hs id
    | _ => exact ⟨⟨trivial, hL _ hl⟩, by intro s c hc; simp [V.child] at hc⟩
  | parsed s v hs => exact fun l c hc => ⟨her_unmarshal_good hs l c hc, her_unmarshal_numShape hs l c hc⟩
  | object => exact her_iff.2 ⟨hP.obj0, by intro s c hc; cases s <;> simp [newObject, V.child, lookup] at hc⟩
  | array => exact (her_arr hP).2 (by simp)
  | set v ch ps _ _ h1 h2 => exact her_set hP ps h1 h2
  | insert after v ch ps _ _ h1 h2 => exact her_insert hP after ps h1 h2
  | append beg v ch ps _ _ h1 h2 => exact her_append hP beg ps h1 h2
  | delete cl v ps _ h1 => exact her_delete hP (fun n kvs low h => h.1.1) cl ps h1
  | read cl v ps _ h1 => exact her_getC hP cl ps h1
  | child v l c _ hc h1 => exact her_at h1 hc
  | inner v l c d _ hc _ h1 h2 => exact her_replace hP hc h1 h2
  | reorder v w _ hr h1 =>
    rw [her_iff] at h1 ⊢
    refine ⟨⟨reorder_good hr h1.1.1, by cases hr; trivial⟩, fun s c hc => h1.2 s c (by rw [← reorder_child hr h1.1.1]; exact hc)⟩
  | sort S v less w _ hs h1 => exact her_sort hP hs h1
  | copy v _ _ h1 => exact her_deepCopy (fun w h => ⟨good_deepCopy w h.1, numShape_deepCopy w h.2⟩) h1

theorem api_numShape {v : V} (h : ApiScalar E v) : NumShape v := by
  cases h with
  | str s => trivial
  | bool b => trivial
  | null => trivial
  | int i =>
    obtain ⟨ip, h, -⟩ := fmtInt_spec i
    exact .inr (jnum_shape (.inl ⟨_, _, h⟩))
  | uint u =>
    obtain ⟨ip, h, -⟩ := fmtUint_spec u
    exact .inr (jnum_shape (.inl ⟨_, _, h⟩))
  | float fmt f hf =>
    unfold newFloat64f
    split
    · exact .inr (jnum_shape (hf ‹_›))
    · exact .inl rfl

/-! ### what is read back tells what was written -/

/-- strings and keys that equal UTF-8 ones are UTF-8 -/
theorem utf8_equalTo {val : Bytes → Rat} {v w : V} (h : EqualTo val v w) : Her KeysNodup v → Her Utf8Node w → Her Utf8Node v := by
  induction h with
  | null => exact fun _ _ => her_leaf trivial trivial
  | bool b => exact fun _ _ => her_leaf trivial trivial
  | str s => exact fun _ h => h
  | num => exact fun _ _ => her_leaf trivial trivial
  | arr xs ys hl _ ih =>
    intro hk hw
    rw [her_iff]
    refine ⟨trivial, fun s c hc => ?_⟩
    match s, hc with
    | .idx i, hc =>
      have hc : xs[i]? = some c := hc
      have hi : i < ys.length := by have := (List.getElem?_eq_some_iff.1 hc).1; omega
      exact ih i c ys[i] hc (List.getElem?_eq_getElem hi) ((her_iff.1 hk).2 (.idx i) c hc) ((her_iff.1 hw).2 (.idx i) ys[i] (List.getElem?_eq_getElem hi))
  | obj n kvs low n' kvs' low' hm _ ih =>
    intro hk hw
    rw [her_iff]
    have hkey : ∀ k, k ∈ keys kvs → ∃ e, lookup k kvs' = some e := fun k hk => by
      have h1 := hm k
      rw [members_some.2 hk] at h1
      have := lookup_isSome.2 (members_some.1 h1.symm)
      exact Option.isSome_iff_exists.1 this
    constructor
    · intro e he
      obtain ⟨e', he'⟩ := hkey e.key (List.mem_map_of_mem he)
      have := lookup_some_key he'
      rw [← this.1]
      exact (her_self hw : ∀ e ∈ kvs', ValidUTF8 e.key) e' this.2
    · intro s c hc
      match s, hc with
      | .key k, hc =>
        obtain ⟨e', he'⟩ := hkey k (by
          rw [child_key] at hc
          cases hl : lookup k kvs with
          | none => rw [hl] at hc; cases hc
          | some e => exact lookup_isSome.1 (by rw [hl]; rfl))
        have h2 : (V.obj n' kvs' low').child (.key k) = some e'.v := by rw [child_key, he']; rfl
        exact ih k c e'.v hc h2 ((her_iff.1 hk).2 (.key k) c hc) ((her_iff.1 hw).2 (.key k) _ h2)

theorem allNumsL_get {P : Bytes → Prop} : ∀ {xs : List J}, AllNumsL P xs → ∀ x ∈ xs, x.AllNums P
  | [], _, x, hx => by cases hx
  | y :: ys, h, x, hx => by
    rcases List.mem_cons.1 hx with rfl | hx
    · exact h.1
    · exact allNumsL_get h.2 x hx

theorem allNumsM_get {P : Bytes → Prop} : ∀ {ms : List Mem}, AllNumsM P ms → ∀ m ∈ ms, m.v.AllNums P
  | [], _, x, hx => by cases hx
  | ⟨k, v⟩ :: ys, h, x, hx => by
    rcases List.mem_cons.1 hx with rfl | hx
    · exact h.1
    · exact allNumsM_get h.2 x hx

/-- the numbers of a value are among those of the document it is shown as -/
theorem shows_nums_her {o : Opt} {ord : List Step → List Ent → List Ent → Prop} (ho : o.omitNull = false) {P : Bytes → Prop} {l : List Step} {v : V} {j : J} (h : Shows E o ord l v j)
    (hj : j.AllNums P) : Her (fun c => ∀ src n, c = .num src n → src ≠ [] → P src) v := by
  induction h with
  | null l => exact her_leaf nofun trivial
  | bool l b => exact her_leaf nofun trivial
  | str l s d hc => exact her_leaf nofun trivial
  | num l src n hs => exact her_leaf (fun s m he _ => by cases he; exact hj) trivial
  | spec l src n s j hs _ => exact her_leaf (fun s m he h0 => by cases he; simp [special, h0] at hs) trivial
  | arr l xs js hl _ ih =>
    rw [her_iff]
    refine ⟨nofun, fun s c hc => ?_⟩
    match s, hc with
    | .idx i, hc =>
      have hc : xs[i]? = some c := hc
      have hi : i < js.length := by have := (List.getElem?_eq_some_iff.1 hc).1; omega
      exact ih i c js[i] hc (List.getElem?_eq_getElem hi) (allNumsL_get hj _ (List.getElem_mem hi))
  | obj l n kvs low es ms hperm _ hlen _ _ ih =>
    have hsh : shown o es = es := by simp [shown, ho]
    rw [hsh] at hlen ih
    rw [her_iff]
    refine ⟨nofun, fun s c hc => ?_⟩
    match s, hc with
    | .key k, hc =>
      rw [child_key] at hc
      cases hl : lookup k kvs with
      | none => rw [hl] at hc; cases hc
      | some e =>
        rw [hl] at hc; cases hc
        obtain ⟨i, hi, he⟩ := List.mem_iff_getElem.1 (hperm.mem_iff.2 (lookup_some_key hl).2)
        have hi' : i < ms.length := by omega
        exact ih i e ms[i] (by rw [List.getElem?_eq_getElem hi, he]) (List.getElem?_eq_getElem hi') (allNumsM_get hj _ (List.getElem_mem hi'))

/-- If Unmarshal takes what Marshal wrote, it takes every number. -/
theorem marshal_reads (S : SortFn) (d : Opt) {v : V} {opts : List MOpt} {b : Bytes} (hS : GoodSort S) (hm : Marshalable v) (hsol : Her Solid v) (hn : Her NumShape v)
    (hf : Her (fun c => ∀ src n, c = .num src n → src ≠ []) v) (ho : (combineOptions d opts).omitNull = false) (hi : BlankIndent (combineOptions d opts).indent)
    (h : marshal E S d v opts = .ok (b, none)) {w : V} (hw : unmarshal E b = .ok w) :
    Her (fun c => ∀ src n, c = .num src n → Reads E src) v ∧ Her Utf8Node w := by
  have hp : Her (Printable E (combineOptions d opts) (fun t => (∃ c u, t = c :: u ∧ (Digit c ∨ c = 0x2D)) ∧ ∀ c ∈ t, NumChar c) (fun _ => True)) v := fun l c hc => by
    have h1 := hsol l c hc
    have h2 := hn l c hc
    have h3 := hf l c hc
    cases c with
    | nilp => exact absurd rfl h1.1
    | notExist => exact absurd rfl h1.2
    | num src n =>
      have h3 := h3 src n rfl
      have hs : special src n = none := by simp [special, h3]
      exact ⟨fun _ => h2.resolve_left h3, fun s h => by rw [hs] at h; cases h⟩
    | obj => intro _ _; trivial
    | _ => trivial
  obtain ⟨j, h1, h2⟩ := marshal_lenient hS d hm hp hi h
  obtain ⟨j', h3, rfl⟩ := (unmarshal_iff E b w).1 hw
  have hshape : TokShape (fun t => (∃ c u, t = c :: u ∧ (Digit c ∨ c = 0x2D)) ∧ ∀ c ∈ t, NumChar c) := fun t h => h
  have h3' : LText (fun t => (∃ c u, t = c :: u ∧ (Digit c ∨ c = 0x2D)) ∧ ∀ c ∈ t, NumChar c) b j' := by
    obtain ⟨b1, t, b2, he, hb1, hv, hb2⟩ := h3
    exact ⟨b1, t, b2, he, hb1, lval_mono (fun _ => numTok_shape E _) hv, hb2⟩
  have := ltext_unique hshape h1 h3'
  subst this
  obtain ⟨b1, t, b2, he, hb1, hv, hb2⟩ := h3
  have h4 := shows_nums_her ho h2 (lval_nums hv)
  exact ⟨fun l c hc src n hcn => numTok_reads (h4 l c hc src n hcn (hf l c hc src n hcn)), utf8_toV j (shows_texts h2)⟩

end JV
