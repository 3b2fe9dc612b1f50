import Verif.Props.Exact
/-!
C13 exactly, for OptSetSequence and for less functions.
-/
namespace JV
open Spec
variable {E : Env} {o : Opt}

/-- members in the order of the numbers that Set gives them -/
def IdOrder (_ : List Step) (_ es : List Ent) : Prop := es.Pairwise fun a b => a.id.toNat < b.id.toNat

/-- an object with a history that begins with NewObject() and calls Set less than 2^32 times -/
def ShortHistory (E : Env) : V → Prop
  | .obj n kvs low => ∃ ops, ObjRun E newObject ops (.obj n kvs low) ∧ setCount ops < 2 ^ 32
  | _ => True

/-- another way to describe the order of members -/
theorem jsonOK_ord {ord ord' : List Step → List Ent → List Ent → Prop} {P : V → Prop} {l : List Step} {v : V} (h : JsonOK E o ord l v) (hk : Her KeysNodup v) (hp : Her P v)
    (hm : ∀ l n kvs low es, P (.obj n kvs low) → (kvs.map Ent.key).Nodup → es.Perm kvs → ord l kvs es → ord' l kvs es) : JsonOK E o ord' l v := by
  induction h with
  | null => exact .null _
  | bool => exact .bool _ _
  | str l s h => exact .str _ _ h
  | num l src n h h' => exact .num _ _ _ h h'
  | spec l src n s j h1 h2 h3 h4 => exact .spec _ _ _ s j h1 h2 h3 h4
  | lone l x h => exact .lone _ _ h
  | arr l xs h ih =>
    refine .arr _ _ fun i x hx => ?_
    have hc : (V.arr xs).child (.idx i) = some x := by simpa [V.child] using hx
    exact ih i x hx ((her_iff.1 hk).2 _ _ hc) ((her_iff.1 hp).2 _ _ hc)
  | obj l n kvs low es h1 h2 h3 h4 h5 ih =>
    have hnd : (kvs.map Ent.key).Nodup := her_self hk
    refine .obj _ _ _ _ es h1 (hm l n kvs low es (her_self hp) hnd h1 h2) h3 h4 fun e he ho => ?_
    have hc : (V.obj n kvs low).child (.key e.key) = some e.v := by simp [V.child, lookup_mem hnd he]
    exact ih e he ho ((her_iff.1 hk).2 _ _ hc) ((her_iff.1 hp).2 _ _ hc)

/-- **C13 exactly, with OptSetSequence**: what is written is JSON exactly if no member left out stands between two others, in the order in which they were set. -/
theorem C13_exact_set_sequence (E : Env) (S : SortFn) (v : V) (opts : List MOpt) (b : Bytes) (hS : GoodSort S) (hF : ∀ f, isValidFloat f = true → JNum (E.jsonFloat f))
    (hv : Built E (ApiScalar E) v) (hh : Her (ShortHistory E) v) (hi : WsIndent (combineOptions emptyOptions opts).indent) (ho : lastSet setsOrder opts .any = .bySet)
    (h : marshal E S emptyOptions v opts = .ok (b, none)) : (∃ j, JText b j) ↔ JsonOK E (combineOptions emptyOptions opts) IdOrder [] v := by
  have hk := (api_marshalable hv).1.1
  have hord := (set_order opts).trans ho
  have hs : ∀ p kvs, sorted S (optOf emptyOptions opts) p kvs = sorted S (optOf emptyOptions opts) none kvs := fun p kvs => by
    obtain ⟨h1, h2, h3⟩ := orderOf_bySet hord
    rw [sorted_eq, sorted_eq, h1]
  have hseq : ∀ n kvs low, ShortHistory E (.obj n kvs low) → (kvs.map Ent.key).Nodup → ∃ es, es.Perm kvs ∧ es.Pairwise (fun a b => a.id.toNat < b.id.toNat) ∧
      sorted S (optOf emptyOptions opts) none kvs = es := by
    rintro n kvs low ⟨ops, hr, hc⟩ hn
    obtain ⟨n', kvs', low', es, he, h1, h2⟩ := objRun_seq hr 0 [] none [] rfl new_good seqd_new (by simpa using hc)
    cases he
    exact ⟨es, h1.1, h1.2.1, sorted_bySet hS hord hn h1 none⟩
  have hx : (∃ j, JText b j) ↔ JsonOK E (combineOptions emptyOptions opts) (fun _ kvs es => es = sorted S (optOf emptyOptions opts) none kvs) [] v :=
    marshal_exact hS _ (api_marshalable hv).1 hF (api_marshalable hv).2 hi (fun _ p kvs _ _ => hs p kvs) (fun _ p kvs es _ _ _ he ht => by rw [hs]; exact he ▸ ht) h
  rw [hx]
  constructor
  · intro hj
    refine jsonOK_ord hj hk hh fun l n kvs low es hp hn _ he => ?_
    obtain ⟨es', -, h2, h3⟩ := hseq n kvs low hp hn
    rw [h3] at he
    exact he ▸ h2
  · intro hj
    refine jsonOK_ord hj hk hh fun l n kvs low es hp hn hpm he => ?_
    obtain ⟨es', h1, h2, h3⟩ := hseq n kvs low hp hn
    rw [h3]
    exact perm_sorted_unique (hpm.trans h1.symm) he h2 fun a b _ _ h h' => absurd h' (by omega)

/-- members in the order of a relation that depends on where the object stands -/
def PlaceOrder (lt : List Step → Ent → Ent → Bool) (l : List Step) (_ es : List Ent) : Prop := es.Pairwise fun a b => lt l a b = true

/-- **C13 exactly, with a less function** that puts the members of each object in a strict order: in this order. -/
theorem C13_exact_less (E : Env) (S : SortFn) (v : V) (opts : List MOpt) (b : Bytes) (f : LessFn) (lt : List Step → Ent → Ent → Bool) (hS : GoodSort S)
    (hF : ∀ f, isValidFloat f = true → JNum (E.jsonFloat f)) (hv : Built E (ApiScalar E) v) (hi : WsIndent (combineOptions emptyOptions opts).indent)
    (ho : lastSet setsOrder opts .any = .less f) (hw : ∀ l, StrictWeak (lt l)) (ht : ∀ l a b, a.key ≠ b.key → lt l a b = true ∨ lt l b a = true)
    (hf : ∀ l p a b, InfoAt l p → a.key ≠ b.key → f p a.key b.key a.v b.v = lt l a b)
    (h : marshal E S emptyOptions v opts = .ok (b, none)) : (∃ j, JText b j) ↔ JsonOK E (combineOptions emptyOptions opts) (PlaceOrder lt) [] v := by
  have hl := orderOf_less ((set_order opts).trans ho)
  have hsorted : ∀ l p kvs, (kvs.map Ent.key).Nodup → Fits (optOf emptyOptions opts) l p → (sorted S (optOf emptyOptions opts) p kvs).Pairwise fun a b => lt l a b = true := by
    intro l p kvs hn hfit
    have hp := hfit.1 (by rw [hl]; rfl)
    have h1 : (sorted S (optOf emptyOptions opts) p kvs).Pairwise fun a b => lt l b a = false := by
      rw [sorted_eq, hl]
      exact sortBy_sorted hS (hw l) kvs fun i j a b ha hb hij => hf l p a b hp (key_ne hn ha hb hij)
    have h2 : (sorted S (optOf emptyOptions opts) p kvs).Pairwise fun a b => a.key ≠ b.key :=
      ((sorted_perm (o := optOf emptyOptions opts) hS p kvs).pairwise_iff fun h' => Ne.symm h').2 (List.pairwise_map.1 hn)
    refine (h1.and h2).imp fun {a b} h' => ?_
    rcases ht l a b h'.2 with h3 | h3
    · exact h3
    · rw [h3] at h'; cases h'.1
  refine marshal_exact hS _ (api_marshalable hv).1 hF (api_marshalable hv).2 hi hsorted (fun l p kvs es hn hfit hpm he ht' => ?_) h
  have := perm_sorted_unique (hpm.trans (sorted_perm (o := optOf emptyOptions opts) hS p kvs).symm) he (hsorted l p kvs hn hfit)
    (fun a _ c _ h1 h2 => absurd ((hw l).trans a c a h1 h2) (by rw [(hw l).irrefl]; simp))
  exact this ▸ ht'

-- "a", "b" and "c" set in this order; "b" is null
def sampleSet : V := [(asc "a", V.bool true), (asc "b", V.null), (asc "c", V.bool false)].foldl (fun v p => ObjOp.run sampleEnv v (.set p.1 p.2)) newObject
example : Her (ShortHistory sampleEnv) sampleSet := by
  refine her_of_kids ⟨_, objRun_foldl sampleEnv [(asc "a", V.bool true), (asc "b", V.null), (asc "c", V.bool false)] newObject, by decide⟩ ?_
  rintro c ⟨e, he, rfl⟩
  have : e.v = .bool true ∨ e.v = .null ∨ e.v = .bool false := by revert e; decide +kernel
  rcases this with h | h | h <;> rw [h] <;> exact her_leaf trivial trivial
example : marshal sampleEnv insertionSort emptyOptions sampleSet [.setSeq, .omitNull true] = .ok (asc "{\"a\":true\"c\":false}", none) := by decide +kernel
example : marshal sampleEnv insertionSort emptyOptions (ObjOp.run sampleEnv sampleSet (.set (asc "b") .null)) [.setSeq, .omitNull true] = .ok (asc "{\"a\":true,\"c\":false}", none) := by
  decide +kernel

-- the order of keys everywhere, as a less function
example : (∀ l, StrictWeak ((fun _ a b => bytesLt a.key b.key : List Step → Ent → Ent → Bool) l)) ∧
    (∀ (l : List Step) (p : Option ParentInfo) (a b : Ent), InfoAt l p → a.key ≠ b.key → defaultStringSequence p a.key b.key a.v b.v = bytesLt a.key b.key) :=
  ⟨fun _ => ⟨fun a => bytesLt_weak.irrefl a.key, fun a b c => bytesLt_weak.trans a.key b.key c.key, fun a b c => bytesLt_weak.incomp a.key b.key c.key⟩,
    fun _ _ _ _ _ h => bytesLe_ne h⟩

end JV
