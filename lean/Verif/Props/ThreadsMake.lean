import Verif.Proofs.ThreadsPath
import Verif.Props.ThreadsWrite
/-!
C105: goroutines that make new values while they work on values that share nothing.
-/
namespace JV
open Spec

variable {α β : Type}

/-- The programs of `Works`, and those that make new `V`s: NewXxx, Set.At and Append with a path for which containers are made, deep copies, also of what
is common to all, documents as trees, Unmarshal and UnmarshalJSON; also Insert and Delete with any path and SortArray, and loops whose callbacks do all this. What a goroutine makes belongs to it from then on: the own part, `F`, grows. -/
inductive Makes (E : Env) (S : SortFn) (D : DecFn) (G : Nat → Prop) : {α : Type} → ((Nat → Prop) → R α → Prop) → (Nat → Prop) → Act α → Prop
  | call {α : Type} {F : Nat → Prop} {Q : R α → Prop} (p : Act α) (h : Works E S D F G Q p) : Makes E S D G (fun F' r => F' = F ∧ Q r) F p
  | new {F : Nat → Prop} (c : Cell) (hc : ∀ p ∈ pointers c, Own F p) : Makes E S D G OwnR F (aNew c)
  | setAt {F : Nat → Prop} (v c : Ptr) (ps : List Param) (hv : Own F v) (hc : Own F c) : Makes E S D G OwnR F (aSetAt E v c ps)
  | copy {F : Nat → Prop} (n : Nat) (v : Ptr) (hv : Own F v ∨ Own G v) : Makes E S D G OwnR F (aDeepCopy n v)
  | insertAt {F : Nat → Prop} (after : Bool) (v c : Ptr) (ps : List Param) (hv : Own F v) (hc : Own F c) : Makes E S D G OwnR F (aInsertAt E after v c [] ps)
  | appendAt {F : Nat → Prop} (beginning : Bool) (v c : Ptr) (ps : List Param) (hv : Own F v) (hc : Own F c) :
      Makes E S D G OwnR F (aAppendAt E beginning v c ps)
  | deleteAt {F : Nat → Prop} (cl : Bool) (v : Ptr) (ps : List Param) (hv : Own F v) : Makes E S D G OwnR F (aDeleteAt E cl v [] ps)
  | sort {F : Nat → Prop} (n : Nat) (v : Ptr) (less : Option (V → V → Bool)) (hv : Own F v) : Makes E S D G OwnR F (aSortArray S n v less)
  | build {F : Nat → Prop} (t : V) : Makes E S D G OwnR F (aBuild t)
  | unmarshal {F : Nat → Prop} (b : Bytes) : Makes E S D G OwnR F (aUnmarshal E b)
  | load {F : Nat → Prop} (v : Ptr) (b : Bytes) (hv : Own F v) : Makes E S D G OwnR F (aLoad E v b)
  | rangeArray {F : Nat → Prop} (v : Ptr) (f : Nat → Ptr → Act Bool) (hv : Own F v)
      (h : ∀ F' k c, (∀ a, F a → F' a) → Own F' c → Makes E S D G (fun _ _ => True) F' (f k c)) : Makes E S D G (fun _ _ => True) F (aRangeArray v f)
  | rangeArrayCommon {F : Nat → Prop} (v : Ptr) (f : Nat → Ptr → Act Bool) (hv : Own G v)
      (h : ∀ F' k c, (∀ a, F a → F' a) → Own G c → Makes E S D G (fun _ _ => True) F' (f k c)) : Makes E S D G (fun _ _ => True) F (aRangeArray v f)
  | rangeObjects {F : Nat → Prop} (order : List HEnt → List HEnt) (ho : ∀ l, (order l).Perm l) (v : Ptr) (f : Bytes → Ptr → Act Bool) (hv : Own F v)
      (h : ∀ F' k c, (∀ a, F a → F' a) → Own F' c → Makes E S D G (fun _ _ => True) F' (f k c)) : Makes E S D G (fun _ _ => True) F (aRangeObjects order v f)
  | rangeObjectsCommon {F : Nat → Prop} (order : List HEnt → List HEnt) (ho : ∀ l, (order l).Perm l) (v : Ptr) (f : Bytes → Ptr → Act Bool) (hv : Own G v)
      (h : ∀ F' k c, (∀ a, F a → F' a) → Own G c → Makes E S D G (fun _ _ => True) F' (f k c)) : Makes E S D G (fun _ _ => True) F (aRangeObjects order v f)
  | weaken {α : Type} {F : Nat → Prop} {Q Q' : (Nat → Prop) → R α → Prop} (p : Act α) (h : Makes E S D G Q F p) (hq : ∀ F' r, Q F' r → Q' F' r) :
      Makes E S D G Q' F p
  | ret {α : Type} {F : Nat → Prop} {Q : (Nat → Prop) → R α → Prop} (r : R α) (h : Q F r) : Makes E S D G Q F (.ret r)
  | andThen {α β : Type} {F : Nat → Prop} {Q : (Nat → Prop) → R α → Prop} {Q' : (Nat → Prop) → R β → Prop} (p : Act α) (f : R α → Act β)
      (h : Makes E S D G Q F p) (hf : ∀ F' r, (∀ a, F a → F' a) → Q F' r → Makes E S D G Q' F' (f r)) : Makes E S D G Q' F (p.andThen f)

theorem makes_keepsG {E : Env} {S : SortFn} {D : DecFn} {F G : Nat → Prop} {Q : (Nat → Prop) → R α → Prop} {p : Act α} (h : Makes E S D G Q F p) :
    KeepsG G Q F p := by
  induction h with
  | call p h => exact keepsG_of (works_keepsTo h)
  | new c hc => exact keepsG_new hc
  | setAt v c ps hv hc => exact keepsG_setAt E ps hv hc
  | copy n v hv => exact keepsG_deepCopy n _ v hv
  | insertAt after v c ps hv hc => exact keepsG_insertAt E after ps [] hv hc
  | appendAt beg v c ps hv hc => exact keepsG_appendAt E beg ps hv hc
  | deleteAt cl v ps hv => exact keepsG_deleteAt E cl ps [] hv
  | sort n v less hv => exact keepsG_lift (keepsTo_sortArray S n hv less)
  | build t => exact keepsG_build t
  | unmarshal b => exact keepsG_unmarshal E b
  | load v b hv => exact keepsG_load E hv b
  | rangeArray v f hv _ ih => exact keepsG_rangeArray (own := true) hv ih
  | rangeArrayCommon v f hv _ ih => exact keepsG_rangeArray (own := false) hv ih
  | rangeObjects order ho v f hv _ ih => exact keepsG_rangeObjects (own := true) ho hv ih
  | rangeObjectsCommon order ho v f hv _ ih => exact keepsG_rangeObjects (own := false) ho hv ih
  | weaken p _ hq ih => exact keepsG_mono hq ih
  | ret r h => exact h
  | andThen p f _ _ h1 h2 => exact keepsG_andThen h1 h2

/-- each goroutine keeps to what it was given and what it makes -/
def AllMake (E : Env) (S : SortFn) (D : DecFn) (w : World α) (own : Nat → List Ptr) (common : List Ptr) : Prop :=
  ∀ (i : Nat) p, w.threads[i]? = some p → Makes E S D (Reached w.mem.heap common) (fun _ _ => True) (Reached w.mem.heap (own i)) p

/-- all pointers that can be followed lead to an object -/
def NoDangling (h : Heap) (own : Nat → List Ptr) (common : List Ptr) : Prop :=
  (∀ i a, Reached h (own i) a → a < h.length) ∧ ∀ a, Reached h common a → a < h.length

theorem grow_of {E : Env} {S : SortFn} {D : DecFn} {w x : World α} {own : Nat → List Ptr} {common : List Ptr} (hsep : Separate w.mem.heap own common)
    (hd : NoDangling w.mem.heap own common) (hw : AllMake E S D w own common) (h : World.Steps w x) :
    ∃ F, GrowRun (fun i => Reached w.mem.heap (own i)) (Reached w.mem.heap common) w x F :=
  grow_steps hsep.apart hsep.noCommon hd.1 hd.2 (fun _ => reached_closed _ _) (reached_closed _ _) (fun i p hp => makes_keepsG (hw i p hp)) h

theorem grow_reached {w x : World α} {own : Nat → List Ptr} {common : List Ptr} {F : Nat → Nat → Prop}
    (h : GrowRun (fun i => Reached w.mem.heap (own i)) (Reached w.mem.heap common) w x F) :
    (∀ i a, Reached x.mem.heap (own i) a → F i a) ∧ ∀ a, Reached x.mem.heap common a → Reached w.mem.heap common a := by
  constructor
  · intro i a hr
    induction hr with
    | root a ha => exact h.grow i a (.root a ha)
    | child a b c _ hc hb ih => exact h.closed i a c ih hc (some b) hb b rfl
  · intro a hr
    induction hr with
    | root a ha => exact .root a ha
    | child a b c _ hc hb ih => exact .child a b c ih (by rw [← h.common a ih]; exact hc) hb

/-- Goroutines that read and change and make values, each one in what it can reach from its own values, which share nothing, and in what it has made:
however they are interleaved there is no data race; what they have stays apart, no `V` of one ever gets reachable from the values of another or from
what is common; what is common, what belonged to no goroutine, and the default options stay as they are. -/
theorem C105 (E : Env) (S : SortFn) (D : DecFn) (w x : World α) (own : Nat → List Ptr) (common : List Ptr) (hsep : Separate w.mem.heap own common)
    (hd : NoDangling w.mem.heap own common) (hw : AllMake E S D w own common) (h : World.Steps w x) :
    ¬ x.Race ∧ Separate x.mem.heap own common ∧ NoDangling x.mem.heap own common ∧ x.mem.options = w.mem.options ∧
    (∀ a, Reached w.mem.heap common a → x.mem.heap[a]? = w.mem.heap[a]?) ∧
    ∀ a, a < w.mem.heap.length → (∀ i, i < w.threads.length → ¬ Reached w.mem.heap (own i) a) → x.mem.heap[a]? = w.mem.heap[a]? := by
  obtain ⟨F, hF⟩ := grow_of hsep hd hw h
  obtain ⟨h1, h2⟩ := grow_reached hF
  exact ⟨grow_no_race hF, ⟨fun i j a hij ha hb => hF.apart i j a hij (h1 i a ha) (h1 j a hb), fun i a ha hb => hF.noCommon i a (h1 i a ha) (h2 a hb)⟩,
    ⟨fun i a ha => hF.bound i a (h1 i a ha), fun a ha => Nat.lt_of_lt_of_le (hd.2 a (h2 a ha)) hF.size⟩, hF.opts, hF.common, hF.outside⟩

theorem hreadList_same {f g : Ptr → R V} : ∀ {ps : List Ptr}, (∀ p ∈ ps, f p = g p) → hreadList f ps = hreadList g ps
  | [], _ => rfl
  | x :: xs, h => by
    unfold hreadList
    rw [h x List.mem_cons_self, hreadList_same fun p hp => h p (List.mem_cons_of_mem _ hp)]

theorem hread_same {h h' : Heap} {roots : List Ptr} (hs : ∀ a, Reached h roots a → h'[a]? = h[a]?) :
    ∀ (n : Nat) (v : Ptr), Own (Reached h roots) v → hread n h' v = hread n h v
  | 0, _, _ => rfl
  | _ + 1, none, _ => rfl
  | n + 1, some a, hv => by
    have ha := hv a rfl
    have hc : ∀ c, h[a]? = some c → ∀ p ∈ pointers c, hread n h' p = hread n h p :=
      fun c hc p hp => hread_same hs n p fun b hb => .child a b c ha hc (hb ▸ hp)
    unfold hread
    dsimp only
    rw [hs a ha]
    cases hh : h[a]? with
    | none => rfl
    | some c =>
      have hc := hc c hh
      cases c with
      | arr xs => dsimp only; rw [hreadList_same (ps := xs) hc]
      | obj i kvs low => dsimp only; rw [hreadList_same (ps := kvs.map HEnt.v) hc]
      | _ => rfl

/-- Nobody disturbs anybody: whatever another goroutine does in its next step, the document below each of the own values stays the same. -/
theorem C105_undisturbed (E : Env) (S : SortFn) (D : DecFn) (w x : World α) (own : Nat → List Ptr) (common : List Ptr) (hsep : Separate w.mem.heap own common)
    (hd : NoDangling w.mem.heap own common) (hw : AllMake E S D w own common) (h : World.Steps w x) (i j : Nat) (hij : i ≠ j) (p q : Act α) (m : Mem)
    (hp : x.threads[j]? = some p) (hs : p.step x.mem = some (m, q)) (n : Nat) (v : Ptr) (hv : v ∈ own i) : hread n m.heap v = hread n x.mem.heap v := by
  obtain ⟨F, hF⟩ := grow_of hsep hd hw h
  obtain ⟨h1, -⟩ := grow_reached hF
  have hg : ClosedIn (Reached w.mem.heap common) x.mem.heap :=
    fun a c ha hac => reached_closed _ _ a c ha (by rw [← hF.common a ha]; exact hac)
  obtain ⟨F', -, s2, -, -, -, s6, -⟩ := keepsG_step (hF.still j p hp) (hF.closed j) hg (hF.bound j) (fun a ha => Nat.lt_of_lt_of_le (hd.2 a ha) hF.size) hs
  refine hread_same (roots := own i) (fun a ha => s6 a fun hf => ?_) n v fun a e => .root a (e ▸ hv)
  rcases s2 a hf with hf | rfl
  · exact hF.apart i j a hij (h1 i a ha) hf
  · exact Nat.lt_irrefl _ (hF.bound i _ (h1 i _ ha))

/-- The calls that make values are the functions of the heap model. -/
theorem C105_model (E : Env) (v c : Ptr) (ps : List Param) (n : Nat) (m : Mem) :
    (((aSetAt E v c ps).run m).1.heap, ((aSetAt E v c ps).run m).2) = hsetAt E m.heap v c ps ∧
    (((aDeepCopy n v).run m).1.heap, ((aDeepCopy n v).run m).2) = hdeepCopy n m.heap v ∧
    ∀ x, (((aNew x).run m).1.heap, ((aNew x).run m).2) = ((halloc m.heap x).1, .ok (halloc m.heap x).2) := by
  refine ⟨?_, ?_, fun x => rfl⟩
  · rw [run_setAt]; rfl
  · rw [run_deepCopy]; rfl

theorem C105_model_paths (E : Env) (S : SortFn) (v c : Ptr) (ps : List Param) (b : Bool) (m : Mem) :
    (((aInsertAt E b v c [] ps).run m).1.heap, ((aInsertAt E b v c [] ps).run m).2) = hinsert E b m.heap v c ps ∧
    (((aAppendAt E b v c ps).run m).1.heap, ((aAppendAt E b v c ps).run m).2) = happendAt E b m.heap v c ps ∧
    (((aDeleteAt E b v [] ps).run m).1.heap, ((aDeleteAt E b v [] ps).run m).2) = hdeleteAt E b m.heap v [] ps ∧
    (∀ x, (((aBuild x).run m).1.heap, ((aBuild x).run m).2) = ((hbuild m.heap x).1, .ok (hbuild m.heap x).2)) ∧
    (∀ s, (((aLoad E v s).run m).1.heap, ((aLoad E v s).run m).2) = hload E m.heap v s) ∧
    (m.plain = m.heap → ∀ n less, (((aSortArray S n v less).run m).1.heap, ((aSortArray S n v less).run m).2) = hsortArray S n m.heap v less) := by
  refine ⟨?_, ?_, ?_, fun x => ?_, fun s => ?_, fun hm n less => ?_⟩
  · rw [run_insertAt]; rfl
  · rw [run_appendAt]; rfl
  · rw [run_deleteAt]; rfl
  · rw [run_build]; rfl
  · rw [run_load]; rfl
  · rw [run_sortArray S n v less m hm]; rfl

/-- Unmarshal as such code: the document that was read is built of new objects, or nothing is touched -/
theorem C105_unmarshal (E : Env) (b : Bytes) (m : Mem) :
    (∀ c t, goUnmarshal E b = .ok (c, t, none) → (aUnmarshal E b).run m = ({ m with heap := (hbuild m.heap t).1 }, .ok (hbuild m.heap t).2)) ∧
    (∀ c t e, goUnmarshal E b = .ok (c, t, some e) → (aUnmarshal E b).run m = (m, .err e)) := by
  refine ⟨fun c t h => ?_, fun c t e h => ?_⟩
  · unfold aUnmarshal; rw [h]; exact run_build t m
  · unfold aUnmarshal; rw [h]; rfl

/-- two objects and a template that is common; each goroutine sets a copy of the template at a path in its own object, for which an object is made -/
def makeWorld : World Ptr :=
  { mem := { heap := [.obj 0 [] none, .obj 0 [] none, .bool true, .arr [some 2]], options := {} },
    threads := [(aDeepCopy 3 (some 3)).onOk fun c => aSetAt sampleEnv (some 0) c [.str (asc "a"), .str (asc "b")],
      (aDeepCopy 3 (some 3)).onOk fun c => aSetAt sampleEnv (some 1) c [.str (asc "a"), .int 0]] }

def makeOwn : Nat → List Ptr
  | 0 => [some 0]
  | 1 => [some 1]
  | _ => []

theorem make_reached : ∀ i a, Reached makeWorld.mem.heap (makeOwn i) a → (i = 0 ∧ a = 0) ∨ (i = 1 ∧ a = 1) := by
  intro i a h
  induction h with
  | root a h =>
    match i, h with
    | 0, h => cases List.mem_singleton.1 h; exact .inl ⟨rfl, rfl⟩
    | 1, h => cases List.mem_singleton.1 h; exact .inr ⟨rfl, rfl⟩
    | _ + 2, h => cases h
  | child a b c _ hc hb ih => rcases ih with ⟨rfl, rfl⟩ | ⟨rfl, rfl⟩ <;> cases hc <;> cases hb

theorem make_common : ∀ a, Reached makeWorld.mem.heap [some 3] a → a = 2 ∨ a = 3 := by
  intro a h
  induction h with
  | root a h => cases List.mem_singleton.1 h; exact .inr rfl
  | child a b c _ hc hb ih =>
    rcases ih with rfl | rfl <;> cases hc
    · cases hb
    · cases List.mem_singleton.1 hb; exact .inl rfl

-- the hypotheses hold of them
example : Separate makeWorld.mem.heap makeOwn [some 3] ∧ NoDangling makeWorld.mem.heap makeOwn [some 3] ∧
    AllMake sampleEnv insertionSort newFromString makeWorld makeOwn [some 3] := by
  have hl : makeWorld.mem.heap.length = 4 := rfl
  refine ⟨⟨fun i j a hij h1 h2 => ?_, fun i a h1 h2 => ?_⟩, ⟨fun i a h => ?_, fun a h => ?_⟩, fun i p hp => ?_⟩
  · have := make_reached i a h1
    have := make_reached j a h2
    omega
  · have := make_reached i a h1
    have := make_common a h2
    omega
  · have := make_reached i a h
    omega
  · have := make_common a h
    omega
  · have o3 : Own (Reached makeWorld.mem.heap [some 3]) (some 3) := fun a h => by cases h; exact .root 3 (by simp)
    match i, hp with
    | 0, hp =>
      cases hp
      refine .andThen _ _ (.copy _ _ (.inr o3)) fun F' r hs hr => ?_
      cases r with
      | ok c =>
        exact .weaken _ (.setAt _ _ _ (fun a h => by cases h; exact hs 0 (.root 0 (by simp [makeOwn]))) (hr c rfl)) fun _ _ _ => trivial
      | _ => exact .ret _ trivial
    | 1, hp =>
      cases hp
      refine .andThen _ _ (.copy _ _ (.inr o3)) fun F' r hs hr => ?_
      cases r with
      | ok c =>
        exact .weaken _ (.setAt _ _ _ (fun a h => by cases h; exact hs 1 (.root 1 (by simp [makeOwn]))) (hr c rfl)) fun _ _ _ => trivial
      | _ => exact .ret _ trivial
    | _ + 2, hp => cases hp

end JV
