import Verif.Proofs.JsonOK
import Verif.Proofs.SetMore
import Verif.Proofs.Order
import Verif.Proofs.Errors
import Verif.Proofs.History
import Verif.Proofs.RoundTrip
/-!
Lemmas for Props/Exact.
-/
namespace JV
open Spec

variable {E : Env} {S : SortFn}

theorem jnum_taken {t : Bytes} (h : JNum t) : NumTok E t ↔ NumTaken E t := by
  constructor
  · exact fun hn => ⟨fun neg ip hi => (jint_tok_iff hi).1 hn, fun neg ip hf => (jfloat_tok_iff hf).1 hn⟩
  · rintro ⟨h1, h2⟩
    rcases h with ⟨neg, ip, h⟩ | ⟨neg, ip, h⟩
    · exact (jint_tok_iff h).2 (h1 neg ip h)
    · exact (jfloat_tok_iff h).2 (h2 neg ip h)

theorem jtext_nums {P Q : Bytes → Prop} {s : Bytes} {j : J} (h : JText s j) (hPQ : ∀ t, JNum t → P t → Q t) (hp : j.AllNums P) : j.AllNums Q := by
  obtain ⟨w1, t, w2, e, h1, h2, h3⟩ := h
  exact lval_nums (strict_val_gen hPQ h2 hp)

/-! ### number texts of built values -/

theorem closed_numTexts (E : Env) : Closed E NumTextsOK where
  put := fun v s d h => by
    match v, s, h with
    | .obj n kvs low, .key k, h => trivial
    | .obj n kvs low, .idx k, h => trivial
    | .arr xs, .key k, h => trivial
    | .arr xs, .idx i, h => trivial
    | .nilp, _, h => exact h
    | .notExist, _, h => exact h
    | .str _, _, h => exact h
    | .num _ _, _, h => exact h
    | .bool _, _, h => exact h
    | .null, _, h => exact h
  arr := fun _ => trivial
  obj0 := trivial
  setKey := fun n kvs low k c h => trivial
  del := fun n kvs low k h => trivial
  low := fun cl n kvs low k h => trivial

theorem her_unmarshal_numTexts {s : Bytes} {v : V} (h : unmarshal E s = .ok v) : Her NumTextsOK v := by
  intro l c hc
  cases c with
  | num src n => exact numTok_chars (reads_numTok (unmarshal_nums h l _ hc src n rfl))
  | _ => trivial

theorem numTexts_deepCopy (w : V) (h : NumTextsOK w) : NumTextsOK (deepCopy w) := by
  cases w <;> first | exact h | trivial

/-- if the number texts of the scalars are made of the characters of numbers, so are all number texts of a value built from them -/
theorem built_numTexts {L : V → Prop} (hL : ∀ v, L v → NumTextsOK v) {v : V} (h : Built E L v) : Her (fun v => GoodNode E v ∧ NumTextsOK v) v := by
  have hP := (closed_good E).and (closed_numTexts E)
  induction h with
  | scalar v hs hl =>
    rw [her_iff]
    cases v with
    | obj _ _ _ => exact absurd hs id
    | arr _ => exact absurd hs id
    | _ => exact ⟨⟨trivial, hL _ hl⟩, by intro s c hc; simp [V.child] at hc⟩
  | parsed s v hs => exact fun l c hc => ⟨her_unmarshal_good hs l c hc, her_unmarshal_numTexts hs l c hc⟩
  | object => exact her_iff.2 ⟨hP.obj0, by intro s c hc; cases s <;> simp [newObject, V.child, lookup] at hc⟩
  | array => exact (her_arr hP).2 (by simp)
  | set v ch ps _ _ h1 h2 => exact her_set hP ps h1 h2
  | insert after v ch ps _ _ h1 h2 => exact her_insert hP after ps h1 h2
  | append beg v ch ps _ _ h1 h2 => exact her_append hP beg ps h1 h2
  | delete cl v ps _ h1 => exact her_delete hP (fun n kvs low h => h.1.1) cl ps h1
  | read cl v ps _ h1 => exact her_getC hP cl ps h1
  | child v l c _ hc h1 => exact her_at h1 hc
  | inner v l c d _ hc _ h1 h2 => exact her_replace hP hc h1 h2
  | reorder v w _ hr h1 =>
    rw [her_iff] at h1 ⊢
    refine ⟨⟨reorder_good hr h1.1.1, by cases hr; trivial⟩, fun s c hc => h1.2 s c (by rw [← reorder_child hr h1.1.1]; exact hc)⟩
  | sort S v less w _ hs h1 => exact her_sort hP hs h1
  | copy v _ _ h1 => exact her_deepCopy (fun w h => ⟨good_deepCopy w h.1, numTexts_deepCopy w h.2⟩) h1

theorem api_numTexts {v : V} (h : ApiScalar E v) : NumTextsOK v ∧ Solid v := by
  cases h with
  | str s => exact ⟨trivial, nofun, nofun⟩
  | bool b => exact ⟨trivial, nofun, nofun⟩
  | null => exact ⟨trivial, nofun, nofun⟩
  | int i =>
    obtain ⟨ip, h, -⟩ := fmtInt_spec i
    exact ⟨(jnum_shape (.inl ⟨_, _, h⟩)).2, nofun, nofun⟩
  | uint u =>
    obtain ⟨ip, h, -⟩ := fmtUint_spec u
    exact ⟨(jnum_shape (.inl ⟨_, _, h⟩)).2, nofun, nofun⟩
  | float fmt f hf =>
    unfold newFloat64f
    split
    · exact ⟨fun c hc => (jnum_shape (hf ‹_›)).2 c hc, nofun, nofun⟩
    · exact ⟨fun c hc => (by cases hc), nofun, nofun⟩

theorem built_mono {L M : V → Prop} (hLM : ∀ v, L v → M v) {v : V} (h : Built E L v) : Built E M v := by
  induction h with
  | scalar v hs hl => exact .scalar v hs (hLM v hl)
  | parsed s v hs => exact .parsed s v hs
  | object => exact .object
  | array => exact .array
  | set v ch ps _ _ h1 h2 => exact .set v ch ps h1 h2
  | insert after v ch ps _ _ h1 h2 => exact .insert after v ch ps h1 h2
  | append beg v ch ps _ _ h1 h2 => exact .append beg v ch ps h1 h2
  | delete cl v ps _ h1 => exact .delete cl v ps h1
  | read cl v ps _ h1 => exact .read cl v ps h1
  | child v l c _ hc h1 => exact .child v l c h1 hc
  | inner v l c d _ hc _ h1 h2 => exact .inner v l c d h1 hc h2
  | reorder v w _ hr h1 => exact .reorder v w h1 hr
  | sort S v less w _ hs h1 => exact .sort S v less w h1 hs
  | copy v _ hs h1 => exact .copy v h1 hs

theorem api_marshalable {v : V} (h : Built E (ApiScalar E) v) : Marshalable v ∧ Her NumTextsOK v :=
  ⟨built_marshalable (built_mono (fun _ h => (api_numTexts h).2) h), fun l c hc => (built_numTexts (fun _ h => (api_numTexts h).1) h l c hc).2⟩

/-! ### members left out -/

theorem tight_keep {o : Opt} (ho : o.omitNull = false) (es : List Ent) : Tight o es :=
  ⟨[], es, [], by simp, by simp, fun e _ h => (by rw [h.1] at ho; cases ho), by simp⟩

/-- an asymmetric order of keys determines the list -/
theorem keyOrder_unique {r : Bytes → Bytes → Prop} (hr : ∀ {a b}, r a b → ¬ r b a) {a b : List Ent} (hp : a.Perm b)
    (h1 : a.Pairwise fun x y => r x.key y.key) (h2 : b.Pairwise fun x y => r x.key y.key) : a = b :=
  perm_sorted_unique hp h1 h2 (fun _ _ _ _ h h' => absurd h' (hr h))

theorem exact_keys (hS : GoodSort S) (d : Opt) {v : V} (hv : Marshalable v) {opts : List MOpt} {b : Bytes} (hF : ∀ f, isValidFloat f = true → JNum (E.jsonFloat f))
    (hn : Her NumTextsOK v) (hi : WsIndent (optOf d opts).indent) {r : Bytes → Bytes → Prop} (hr : ∀ {a b}, r a b → ¬ r b a)
    (hk : KeyOnly S (optOf d opts) r) (h : marshal E S d v opts = .ok (b, none)) : (∃ j, JText b j) ↔ JsonOK E (optOf d opts) (KeyOrder r) [] v := by
  refine marshal_exact hS d hv hF hn hi (fun l p kvs hnd _ => hk p kvs hnd) (fun l p kvs es hnd _ hp ho ht => ?_) h
  have he := keyOrder_unique (r := r) hr (hp.trans (sorted_perm (o := optOf d opts) hS p kvs).symm) ho (hk p kvs hnd)
  exact he ▸ ht

/-! ### Set, then Get -/

theorem setsTo_addr_conv {c v v' : V} {ps : List Param} {l : List Step} (h : SetsTo E c v ps v' l) (ha : Addr v' ps l) : ¬ Skips v ps := by
  induction h with
  | slice v q qs v' l h ih =>
    intro hs
    cases ha with
    | slice _ _ _ _ ha => cases hs with | slice _ _ _ hs => exact ih ha hs
    | idx _ _ z i hz => cases hz
  | key n kvs low k hc => intro hs; cases hs
  | idx xs p z i hc hz hi => intro hs; cases hs; cases hz
  | idxEnd xs p hc hz => intro hs; cases hs; cases hz
  | keyIn n kvs low k d q qs d' l h1 h2 ih =>
    intro hs
    have hp : ((V.obj n kvs low).put (.key k) d').child (.key k) = some d' := child_put_self h1
    generalize hw : (V.obj n kvs low).put (.key k) d' = w at ha hp
    cases ha with
    | keyCons n' kvs' low' _ c' _ _ _ hc ha =>
      rw [hc] at hp; cases hp
      cases hs with
      | key _ _ _ _ d2 _ _ h3 hs => rw [h1] at h3; cases h3; exact ih ha hs
  | keyNew n kvs low k d q qs d' l h1 hf h2 ih =>
    intro hs
    cases hs with
    | key _ _ _ _ d2 _ _ h3 hs => rw [h1] at h3; cases h3
  | idxIn xs p z i d q qs d' l hz hi h1 h2 ih =>
    intro hs
    have hp : ((V.arr xs).put (.idx i) d').child (.idx i) = some d' := child_put_self h1
    generalize hw : (V.arr xs).put (.idx i) d' = w at ha hp
    cases ha with
    | idxCons ys _ z' _ c' _ _ _ hz' hi' hc ha =>
      rw [hc] at hp; cases hp
      cases hs with
      | here _ _ z2 _ _ hz2 hi2 => rw [hz] at hz2; cases hz2; rw [hi] at hi2; cases hi2
      | idx _ _ z2 i2 d2 _ _ hz2 hi2 h3 hs =>
        rw [hz] at hz2; cases hz2; rw [hi] at hi2; cases hi2; rw [h1] at h3; cases h3
        exact ih ha hs
  | idxNew xs p z d q qs d' l hz hi hf h2 ih =>
    intro hs
    cases hs with
    | here _ _ z2 _ _ hz2 hi2 hi3 =>
      cases ha with
      | idxCons ys _ z' _ c' _ _ _ hz' hi' hc ha =>
        rw [hz] at hz2; cases hz2; rw [hz] at hz'; cases hz'
        rw [List.length_append] at hi'
        exact hi3 hi'
    | idx _ _ z2 i2 d2 _ _ hz2 hi2 h3 hs => rw [hz] at hz2; cases hz2; rw [hi] at hi2; cases hi2

end JV
