import Verif.Proofs.Nondet
import Verif.Props.Order
import Verif.Props.Parsing
/-!
C76: which texts Marshal may give. Go visits a map in another order at every call: a call of Marshal may see any `Shuffled` value.
-/
namespace JV
open Spec

/-- Without a key order option: for the values of C10, the documents that Marshal may write, visiting the maps in one order or another, are exactly
those that show the contents of the value with the members of each object in some order. Nothing else is ever written, and no order is ruled out. -/
theorem C76_possible (E : Env) (S : SortFn) (v : V) (opts : List MOpt) (j : J) (hS : GoodSort S) (hv : Marshalable v)
    (ho : lastSet setsOrder opts .any = .any)
    (hp : Her (Printable E (combineOptions emptyOptions opts) JNum (fun s => 0xB ∉ s)) v) (hn : Her (NothingOmitted (combineOptions emptyOptions opts)) v)
    (hi : WsIndent (lastSet setsIndent opts none)) :
    (∃ w b, Shuffled v w ∧ marshal E S emptyOptions w opts = .ok (b, none) ∧ JText b j) ↔ Shows E (combineOptions emptyOptions opts) AnyOrder [] v j := by
  have hi' : WsIndent (optOf emptyOptions opts).indent := by
    rw [show (optOf emptyOptions opts).indent = lastSet setsIndent opts none from opt_field Opt.indent _ merge_indent emptyOptions opts]; exact hi
  have hpw : ∀ w, Shuffled v w → Her (Printable E (optOf emptyOptions opts) JNum (fun s => 0xB ∉ s)) w := fun w hs => her_shuffled printable_shuffled hv.1 hp hs
  have hnw : ∀ w, Shuffled v w → Her (NothingOmitted (optOf emptyOptions opts)) w := fun w hs => her_shuffled nothingOmitted_shuffled hv.1 hn hs
  constructor
  · rintro ⟨w, b, hs, hm, hj⟩
    obtain ⟨j', h1, h2⟩ := marshal_strict hS emptyOptions (marshalable_shuffled hv hs) (hpw w hs) (hnw w hs) hi' hm
    rw [jtext_unique hj h1]
    exact shows_shuffled h2 v hs
  · intro h
    obtain ⟨w, hs, hw⟩ := shows_stored h
    have hm := marshal_printable (S := S) emptyOptions (marshalable_shuffled hv hs) (her_self (hpw w hs))
    obtain ⟨j', h1, h2⟩ := marshal_strict hS emptyOptions (marshalable_shuffled hv hs) (hpw w hs) (hnw w hs) hi' hm
    refine ⟨w, _, hs, hm, ?_⟩
    have : Shows E (optOf emptyOptions opts) Stored [] w j' := shows_mono (by
      rintro l k e ⟨p, -, -, rfl⟩
      exact sorted_any ((set_order opts).trans ho) p k) h2
    rw [shows_unique this j hw]
    exact h1

/-- With OptDefaultStringSequence the bytes do not depend on the order in which maps are visited, nor on how sort.Sort sorts. -/
theorem C76_default (E : Env) (S S' : SortFn) (v w : V) (opts : List MOpt) (hS : GoodSort S) (hS' : GoodSort S') (hv : Marshalable v)
    (ho : lastSet setsOrder opts .any = .less defaultStringSequence) (h : Shuffled v w) : marshal E S emptyOptions v opts = marshal E S' emptyOptions w opts :=
  C14_canonical E S S' v w opts hS hS' hv (marshalable_shuffled hv h) ho (shuffled_same h hv.1)

/-- ... nor with OptKeySequence of a list that is not empty, ... -/
theorem C76_keys (E : Env) (S S' : SortFn) (v w : V) (opts : List MOpt) (seq : List Bytes) (hS : GoodSort S) (hS' : GoodSort S') (hv : Marshalable v)
    (ho : lastSet setsOrder opts .any = .keys seq) (h : Shuffled v w) : marshal E S emptyOptions v opts = marshal E S' emptyOptions w opts :=
  C15_canonical_partial E S S' v w opts seq hS hS' hv (marshalable_shuffled hv h) ho (shuffled_same h hv.1)

/-- ... nor with OptLess and a function that decides by the keys which of two members comes first, consistently and without ties, ... -/
theorem C76_less (E : Env) (S S' : SortFn) (v w : V) (opts : List MOpt) (f : LessFn) (lt : Bytes → Bytes → Bool) (hS : GoodSort S) (hS' : GoodSort S') (hv : Marshalable v)
    (ho : lastSet setsOrder opts .any = .less f) (hlt : StrictWeak lt) (htot : ∀ a b, a ≠ b → lt a b = true ∨ lt b a = true)
    (hf : ∀ p a b x y, a ≠ b → f p a b x y = lt a b) (h : Shuffled v w) : marshal E S emptyOptions v opts = marshal E S' emptyOptions w opts := by
  refine marshal_same (r := fun a b => lt a b = true) hS hS' (fun a b h1 h2 => ?_) (fun S hS par kvs hn => ?_) hv (marshalable_shuffled hv h) (shuffled_same h hv.1)
  · have := hlt.trans a b a h1 h2; rw [hlt.irrefl] at this; cases this
  · rw [sorted_eq, orderOf_less ((set_order opts).trans ho)]
    have h1 := sortBy_sorted hS (on_weak hlt Ent.key) kvs (less := fun a b => f par a.key b.key a.v b.v) fun i j a b ha hb hij => hf _ _ _ _ _ (key_ne hn ha hb hij)
    refine (pairwise_keys (((sortBy_perm hS _ kvs).map Ent.key).nodup_iff.2 hn) h1).imp fun {a b} h => ?_
    rcases htot a.key b.key h.1 with h' | h'
    · exact h'
    · rw [h.2] at h'; cases h'

/-- ... nor with OptSetSequence, if the members of each object carry different numbers. -/
theorem C76_bySet (E : Env) (S S' : SortFn) (v w : V) (opts : List MOpt) (hS : GoodSort S) (hS' : GoodSort S') (hv : Marshalable v) (hid : Her IdsNodup v)
    (ho : lastSet setsOrder opts .any = .bySet) (h : Shuffled v w) : marshal E S emptyOptions v opts = marshal E S' emptyOptions w opts := by
  rw [marshal_eq _ hv, marshal_eq _ (marshalable_shuffled hv h), errOf_shuffled h]
  unfold textOf
  rw [doc_bySet hS hS' ((set_order opts).trans ho) v w h hv.1 hid none none]

/-- They do after any history of operations on an object with less than 2^32 calls of Set ... -/
theorem C76_ids_history (E : Env) (ops : List ObjOp) (w : V) (h : ObjRun E newObject ops w) (hc : setCount ops < 2 ^ 32) : IdsNodup w := by
  obtain ⟨n, kvs, low, es, rfl, h1, -⟩ := objRun_seq h 0 [] none [] rfl new_good seqd_new (by simpa using hc)
  exact seqd_nodup h1

/-- ... and in a parsed document, if no object in its text has 2^32 members. -/
theorem C76_ids_parsed (E : Env) (s : Bytes) (j : J) (v : V) (h : unmarshal E s = .ok v) (hj : LText (NumTok E) s j) (hn : j.Narrow) : Her IdsNodup v := by
  have he := (unmarshal_iff E s _).2 ⟨_, hj, rfl⟩
  rw [h] at he
  cases he
  exact toV_ids E j hn

/-! ### a case -/

/-- {"a":true,"b":{"c":null,"d":false}}, and how else it may be seen -/
def sampleMap : V := .obj 2 [⟨asc "a", 1, .bool true⟩, ⟨asc "b", 2, .obj 2 [⟨asc "c", 1, .null⟩, ⟨asc "d", 2, .bool false⟩] none⟩] none
def sampleMap' : V := .obj 2 [⟨asc "b", 2, .obj 2 [⟨asc "d", 2, .bool false⟩, ⟨asc "c", 1, .null⟩] none⟩, ⟨asc "a", 1, .bool true⟩] none

theorem sampleMap_shuffled : Shuffled sampleMap sampleMap' :=
  shuffled_mk_obj (.swap _ _ _) (.cons ⟨rfl, rfl, shuffled_mk_obj (.swap _ _ _) (al_refl er_refl _)⟩ (.cons (er_refl _) .nil))

theorem sampleMap_her {P : V → Prop} (h1 : P sampleMap) (h2 : P (.obj 2 [⟨asc "c", 1, .null⟩, ⟨asc "d", 2, .bool false⟩] none)) (h3 : ∀ b, P (.bool b)) (h4 : P .null) :
    Her P sampleMap := by
  have leaf : ∀ v, (∀ s, v.child s = none) → P v → Her P v := fun v hc hv => her_iff.2 ⟨hv, fun s c h => by rw [hc s] at h; cases h⟩
  have lb : ∀ b, Her P (.bool b) := fun b => leaf _ (fun s => by cases s <;> rfl) (h3 b)
  have ln : Her P .null := leaf _ (fun s => by cases s <;> rfl) h4
  refine her_iff.2 ⟨h1, fun s c hc => ?_⟩
  cases s with
  | idx i => simp [sampleMap, V.child] at hc
  | key k =>
    simp only [sampleMap, V.child, lookup] at hc
    split at hc
    · cases hc; exact lb _
    split at hc
    · cases hc
      refine (her_iff (v := .obj 2 [⟨asc "c", 1, .null⟩, ⟨asc "d", 2, .bool false⟩] none)).2 ⟨h2, fun s c hc => ?_⟩
      cases s with
      | idx i => simp [V.child] at hc
      | key k =>
        simp only [V.child, lookup] at hc
        split at hc
        · cases hc; exact ln
        split at hc
        · cases hc; exact lb _
        · cases hc
    · cases hc

theorem sampleMap_ok : Marshalable sampleMap :=
  ⟨sampleMap_her (by unfold KeysNodup sampleMap; decide +kernel) (by unfold KeysNodup; decide +kernel) (fun _ => trivial) trivial,
    fun l hl => sampleMap_her (P := fun c => c ≠ .nilp) (by simp [sampleMap]) (by simp) (by simp) (by simp) l _ hl rfl, by simp [sampleMap]⟩

/-- Without a key order option the bytes do depend on it. -/
theorem C76_depends : ∃ v w, Shuffled v w ∧ Marshalable v ∧ marshal sampleEnv insertionSort emptyOptions v [] = .ok (asc "{\"a\":true,\"b\":{\"c\":null,\"d\":false}}", none) ∧
    marshal sampleEnv insertionSort emptyOptions w [] = .ok (asc "{\"b\":{\"d\":false,\"c\":null},\"a\":true}", none) :=
  ⟨sampleMap, sampleMap', sampleMap_shuffled, sampleMap_ok, by decide +kernel, by decide +kernel⟩

/-- the hypotheses of `C76_possible` -/
example : Marshalable sampleMap ∧ lastSet setsOrder [] .any = .any ∧
    Her (Printable sampleEnv (combineOptions emptyOptions []) JNum (fun s => 0xB ∉ s)) sampleMap ∧ Her (NothingOmitted (combineOptions emptyOptions [])) sampleMap ∧
    WsIndent (lastSet setsIndent [] none) :=
  ⟨sampleMap_ok, rfl, sampleMap_her (by unfold Printable sampleMap; decide +kernel) (by unfold Printable; decide +kernel) (fun _ => trivial) trivial,
    sampleMap_her (fun h => by cases h) (fun h => by cases h) (fun _ => trivial) trivial, trivial⟩

/-- the hypotheses of `C76_bySet`, and its result -/
example : Her IdsNodup sampleMap ∧ lastSet setsOrder [.setSeq] .any = .bySet ∧
    marshal sampleEnv insertionSort emptyOptions sampleMap' [.setSeq] = .ok (asc "{\"a\":true,\"b\":{\"c\":null,\"d\":false}}", none) :=
  ⟨sampleMap_her (by unfold IdsNodup sampleMap; decide +kernel) (by unfold IdsNodup; decide +kernel) (fun _ => trivial) trivial, rfl, by decide +kernel⟩

/-- an order of keys as `C76_less` needs it -/
example : StrictWeak bytesLt ∧ ∀ a b : Bytes, a ≠ b → bytesLt a b = true ∨ bytesLt b a = true := by
  refine ⟨bytesLt_weak, fun a b h => ?_⟩
  cases h1 : bytesLt b a with
  | true => exact .inr rfl
  | false => exact .inl ((asc_iff a b).2 (asc_of_not h h1))

end JV
