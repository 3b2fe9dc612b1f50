import Verif.Props.Order

/-!
C94: what `Parent` is when a less function is called.
-/
namespace JV
open Spec

/-- `Parent` is the object whose members are compared: the output is the same for two less functions that answer alike whenever that is so. False
for objects that are elements of arrays: see `C94_counterexample`. -/
def C94_statement : Prop := ∀ (E : Env) (S : SortFn) (v : V) (pre post : List MOpt) (f g : LessFn), GoodSort S → Marshalable v →
  (∀ p a b, OwnParent v p a b → f p a.key b.key a.v b.v = g p a.key b.key a.v b.v) → (∀ op ∈ post, setsOrder op = none) →
    marshal E S emptyOptions v (pre ++ .less (some f) :: post) = marshal E S emptyOptions v (pre ++ .less (some g) :: post)

/-- Exactly: below an object `Parent` is the object whose members are compared, below an array it is the array, at the root there is none. The output
depends on a less function only through its answers when it is called so. -/
theorem C94_called_with (E : Env) (S : SortFn) (v : V) (pre post : List MOpt) (f g : LessFn) (hv : Marshalable v)
    (h : ∀ p a b, CalledWith v p a b → f p a.key b.key a.v b.v = g p a.key b.key a.v b.v) (hpost : ∀ op ∈ post, setsOrder op = none) :
    marshal E S emptyOptions v (pre ++ .less (some f) :: post) = marshal E S emptyOptions v (pre ++ .less (some g) :: post) :=
  marshal_less hv h hpost

/-- True of values in which no object is an element of an array. -/
theorem C94_partial (E : Env) (S : SortFn) (v : V) (pre post : List MOpt) (f g : LessFn) (hv : Marshalable v)
    (ha : ∀ l i n kvs low, v.at (l ++ [.idx i]) ≠ some (.obj n kvs low))
    (h : ∀ p a b, OwnParent v p a b → f p a.key b.key a.v b.v = g p a.key b.key a.v b.v) (hpost : ∀ op ∈ post, setsOrder op = none) :
    marshal E S emptyOptions v (pre ++ .less (some f) :: post) = marshal E S emptyOptions v (pre ++ .less (some g) :: post) := by
  refine marshal_less hv (fun p a b ⟨l, n, kvs, low, h1, h2, h3, h4, h5⟩ => h p a b ⟨l, n, kvs, low, h1, h2, fun q hq => ?_, h4, h5⟩) hpost
  rcases List.eq_nil_or_concat l with rfl | ⟨m, s, hl⟩
  · rw [h3.1 rfl] at hq; cases hq
  · rw [List.concat_eq_append] at hl
    subst hl
    cases s with
    | key k =>
      obtain ⟨q', hq', hat⟩ := h3.2.1 m k rfl
      rw [hq] at hq'; cases hq'
      rw [h1] at hat; exact (Option.some.inj hat).symm
    | idx i => exact absurd h1 (ha m i n kvs low)

/-- the members stand in the order of the less function, called with the key path of the object and the parent that `ParentAt` names -/
def LessOrderAt (f : LessFn) (v : V) (l : List Step) (kvs es : List Ent) : Prop :=
  ∃ p, InfoAt l p ∧ ParentAt v l p ∧ ∀ lt : Ent → Ent → Bool, StrictWeak lt → (∀ a b, a ∈ kvs → b ∈ kvs → a.key ≠ b.key → f p a.key b.key a.v b.v = lt a b) →
    es.Pairwise fun a b => lt b a = false

/-- The members of every object stand in the order that the less function gives for this very parent, if that is a strict weak order. -/
theorem C94_sorted (E : Env) (S : SortFn) (v : V) (opts : List MOpt) (f : LessFn) (b : Bytes) (hS : GoodSort S) (hv : Marshalable v)
    (ho : lastSet setsOrder opts .any = .less f) (h : marshal E S emptyOptions v opts = .ok (b, none)) :
    ∃ t, Lays (combineOptions emptyOptions opts) (LessOrderAt f v) (Escaped (lastSet setsUTF8 opts false) (lastSet setsHTML opts true) (lastSet setsSlash opts true)) [] v t ∧
      b = t.print (lastSet setsIndent opts none) 0 := by
  have hl := orderOf_less ((set_order opts).trans ho)
  refine marshal_lays hS hv (fun l par n kvs low _ hn hi => ⟨par, (hi (by rw [hl]; rfl)).1, (hi (by rw [hl]; rfl)).2, fun lt hlt h => ?_⟩) h
  rw [sorted_eq, hl]
  exact sortBy_sorted hS hlt kvs fun i j a b ha hb hij => h a b (List.mem_of_getElem? ha) (List.mem_of_getElem? hb) (key_ne hn ha hb hij)

/-- upwards, but downwards where the parent is an array -/
def byParent : LessFn := fun p k1 k2 _ _ => match p with
  | some ⟨.arr _, _⟩ => bytesLe k2 k1
  | _ => bytesLe k1 k2

/-- upwards everywhere -/
def upwards : LessFn := fun _ k1 k2 _ _ => bytesLe k1 k2

/-- [{"a":null,"b":null}] -/
def objInArr : V := .arr [.obj 2 [⟨asc "a", 1, .null⟩, ⟨asc "b", 2, .null⟩] none]

theorem objInArr_her {P : V → Prop} (h1 : P objInArr) (h2 : P (.obj 2 [⟨asc "a", 1, .null⟩, ⟨asc "b", 2, .null⟩] none)) (h3 : P .null) : Her P objInArr := by
  refine her_of_kids h1 fun c hc => ?_
  cases List.mem_singleton.1 (show c ∈ [_] from hc)
  refine her_of_kids h2 fun c hc => ?_
  obtain ⟨e, he, rfl⟩ := hc
  simp only [List.mem_cons, List.not_mem_nil, or_false] at he
  rcases he with rfl | rfl <;> exact her_leaf h3 trivial

theorem marshalable_objInArr : Marshalable objInArr :=
  ⟨objInArr_her trivial (by unfold KeysNodup; decide +kernel) trivial, noNil_her (objInArr_her (by simp [objInArr]) (by simp) (by simp)), by simp [objInArr]⟩

/-- The less function of the object in [{"a":null,"b":null}] sees the array as its parent. -/
theorem C94_counterexample : ¬ C94_statement := by
  intro h
  have := h sampleEnv insertionSort objInArr [] [] byParent upwards insertionSort_good marshalable_objInArr ?_ (by simp)
  · exact absurd this (by decide +kernel)
  · rintro p a b ⟨l, n, kvs, low, -, -, hq, -, -⟩
    cases p with
    | none => rfl
    | some q =>
      obtain ⟨w, path⟩ := q
      have := hq _ rfl
      simp only at this
      subst this
      rfl

-- objects that are members of objects: the parent is the object itself, here recognised by its first key
def byOwnKey : LessFn := fun p k1 k2 _ _ => match p with
  | some ⟨.obj _ (⟨[0x70], _, _⟩ :: _) _, _⟩ => bytesLe k2 k1
  | _ => bytesLe k1 k2
example : marshal sampleEnv insertionSort emptyOptions (.obj 2 [⟨asc "b", 1, .obj 2 [⟨asc "q", 1, .null⟩, ⟨asc "p", 2, .null⟩] none⟩, ⟨asc "a", 2, .obj 2 [⟨asc "p", 1, .null⟩, ⟨asc "q", 2, .null⟩] none⟩] none) [.less (some byOwnKey)] =
    .ok (asc "{\"a\":{\"q\":null,\"p\":null},\"b\":{\"p\":null,\"q\":null}}", none) := by decide +kernel

-- the condition of C94_partial, for {"x":{"a":null,"b":null}}
example : ∀ l i n kvs low, (V.obj 1 [⟨asc "x", 1, .obj 2 [⟨asc "a", 1, .null⟩, ⟨asc "b", 2, .null⟩] none⟩] none).at (l ++ [.idx i]) ≠ some (.obj n kvs low) := by
  intro l i n kvs low h
  rw [at_append] at h
  obtain ⟨c, hc, h⟩ := Option.bind_eq_some_iff.1 h
  rw [at_one] at h
  have hh : Her (fun c => ∀ i, c.child (.idx i) = none) (V.obj 1 [⟨asc "x", 1, .obj 2 [⟨asc "a", 1, .null⟩, ⟨asc "b", 2, .null⟩] none⟩] none) := by
    refine her_of_kids (fun _ => rfl) ?_
    rintro c ⟨e, he, rfl⟩
    cases List.mem_singleton.1 he
    refine her_of_kids (fun _ => rfl) ?_
    rintro c ⟨e, he, rfl⟩
    simp only [List.mem_cons, List.not_mem_nil, or_false] at he
    rcases he with rfl | rfl <;> exact her_leaf (fun _ => rfl) trivial
  rw [hh l c hc i] at h
  cases h

end JV
