import Verif.Proofs.ThreadsWrite
import Verif.Props.Threads
/-!
C104: goroutines that work on values that share nothing.
-/
namespace JV
open Spec

variable {α β : Type}

/-- The calls a goroutine may make on what belongs to it (`F`), reading and changing, and on what is common to all (`G`), reading only, and everything
made of them: one call after another, depending on the results so far. The predicate is what the following calls may rely on: a pointer that a call
gives belongs to the same part. The callbacks of the Range functions may change values, too. -/
inductive Works (E : Env) (S : SortFn) (D : DecFn) (F G : Nat → Prop) : {α : Type} → (R α → Prop) → Act α → Prop
  | get (cl : Bool) (v : Ptr) (ps : List Param) (hv : Own F v) : Works E S D F G (OwnR F) (aGet E cl v ps)
  | getCommon (v : Ptr) (ps : List Param) (hv : Own G v) : Works E S D F G (OwnR G) (aGet E false v ps)
  | look {α : Type} (v : Ptr) (f : Cell → R α) (hv : Own F v ∨ Own G v) : Works E S D F G Any (aLook v f)
  | marshal (n : Nat) (v : Ptr) (opts : List MOpt) (hv : Own F v ∨ Own G v) : Works E S D F G Any (aMarshal E S n v opts)
  | equal (n : Nat) (v w : Ptr) (hv : Own F v ∨ Own G v) (hw : Own F w ∨ Own G w) : Works E S D F G Any (aEqual D n v w)
  | contains (n : Nat) (v w : Ptr) (path : List Param) (hv : Own F v ∨ Own G v) (hw : Own F w ∨ Own G w) : Works E S D F G Any (aContains E D n v w path)
  | compare {α : Type} (v w : Ptr) (f : Cell → Cell → R α) (hv : Own F v ∨ Own G v) (hw : Own F w ∨ Own G w) : Works E S D F G Any (aCompare v w f)
  | rangeObjects (order : List HEnt → List HEnt) (ho : ∀ l, (order l).Perm l) (v : Ptr) (f : Bytes → Ptr → Act Bool) (hv : Own F v)
      (h : ∀ k c, Own F c → Works E S D F G Any (f k c)) : Works E S D F G Any (aRangeObjects order v f)
  | rangeObjectsCommon (order : List HEnt → List HEnt) (ho : ∀ l, (order l).Perm l) (v : Ptr) (f : Bytes → Ptr → Act Bool) (hv : Own G v)
      (h : ∀ k c, Own G c → Works E S D F G Any (f k c)) : Works E S D F G Any (aRangeObjects order v f)
  | rangeArray (v : Ptr) (f : Nat → Ptr → Act Bool) (hv : Own F v) (h : ∀ k c, Own F c → Works E S D F G Any (f k c)) : Works E S D F G Any (aRangeArray v f)
  | rangeArrayCommon (v : Ptr) (f : Nat → Ptr → Act Bool) (hv : Own G v) (h : ∀ k c, Own G c → Works E S D F G Any (f k c)) :
      Works E S D F G Any (aRangeArray v f)
  | set (v c : Ptr) (p : Param) (hv : Own F v) (hc : Own F c) : Works E S D F G (OwnR F) (aSetLast E v c p)
  | insert (after : Bool) (v c : Ptr) (p : Param) (hv : Own F v) (hc : Own F c) : Works E S D F G (OwnR F) (aInsertLast after v c p)
  | append (beginning : Bool) (v c : Ptr) (hv : Own F v) (hc : Own F c) : Works E S D F G (OwnR F) (aAppendTo beginning v c)
  | delete (cl : Bool) (v : Ptr) (p : Param) (hv : Own F v) : Works E S D F G (OwnR F) (aDeleteLast E cl v p)
  | make (a : Nat) (c : Cell) (ha : F a) (hc : ∀ p ∈ pointers c, Own F p) : Works E S D F G (OwnR F) (aMake a c)
  | ret {α : Type} {Q : R α → Prop} (r : R α) (h : Q r) : Works E S D F G Q (.ret r)
  | andThen {α β : Type} {Q : R α → Prop} {Q' : R β → Prop} (p : Act α) (f : R α → Act β) (h : Works E S D F G Q p)
      (hf : ∀ r, Q r → Works E S D F G Q' (f r)) : Works E S D F G Q' (p.andThen f)

theorem part_of {F G : Nat → Prop} {v : Ptr} (h : Own F v ∨ Own G v) : ∃ H, Part F G H ∧ Own H v := by
  rcases h with h | h
  · exact ⟨F, .inl rfl, h⟩
  · exact ⟨G, .inr rfl, h⟩

theorem works_keepsTo {E : Env} {S : SortFn} {D : DecFn} {F G : Nat → Prop} {Q : R α → Prop} {p : Act α} (h : Works E S D F G Q p) : KeepsTo F G Q p := by
  induction h with
  | get cl v ps hv => exact keepsTo_get (.inl rfl) E cl (fun _ => rfl) hv ps
  | getCommon v ps hv => exact keepsTo_get (.inr rfl) E false (fun h => by cases h) hv ps
  | look v f hv =>
    obtain ⟨H, hH, hv⟩ := part_of hv
    exact keepsTo_mono (fun _ _ => trivial) (keepsTo_look hH hv f)
  | marshal n v opts hv =>
    obtain ⟨H, hH, hv⟩ := part_of hv
    exact fun _ => keepsTo_onOk (keepsTo_read hH n v hv) (fun _ _ => trivial) fun _ _ => trivial
  | equal n v w hv hw =>
    obtain ⟨H, hH, hv⟩ := part_of hv
    obtain ⟨K, hK, hw⟩ := part_of hw
    exact keepsTo_onOk (keepsTo_read hH n v hv) (fun _ _ => keepsTo_onOk (keepsTo_read hK n w hw) (fun _ _ => trivial) fun _ _ => trivial) fun _ _ => trivial
  | contains n v w path hv hw =>
    obtain ⟨H, hH, hv⟩ := part_of hv
    obtain ⟨K, hK, hw⟩ := part_of hw
    exact keepsTo_onOk (keepsTo_read hH n v hv) (fun _ _ => keepsTo_onOk (keepsTo_read hK n w hw) (fun _ _ => trivial) fun _ _ => trivial) fun _ _ => trivial
  | compare v w f hv hw =>
    obtain ⟨H, hH, hv⟩ := part_of hv
    obtain ⟨K, hK, hw⟩ := part_of hw
    exact keepsTo_onOk (keepsTo_look hH hv .ok) (fun _ _ => keepsTo_onOk (keepsTo_look hK hw .ok) (fun _ _ => trivial) fun _ _ => trivial) fun _ _ => trivial
  | rangeObjects order ho v f hv _ ih => exact keepsTo_rangeObjects (.inl rfl) hv ho ih
  | rangeObjectsCommon order ho v f hv _ ih => exact keepsTo_rangeObjects (.inr rfl) hv ho ih
  | rangeArray v f hv _ ih => exact keepsTo_rangeArray (.inl rfl) hv ih
  | rangeArrayCommon v f hv _ ih => exact keepsTo_rangeArray (.inr rfl) hv ih
  | set v c p hv hc => exact keepsTo_set E hv hc p
  | insert after v c p hv hc => exact keepsTo_insert after hv hc p
  | append beg v c hv hc => exact keepsTo_append beg hv hc
  | delete cl v p hv => exact keepsTo_delete E cl hv p
  | make a c ha hc => exact keepsTo_make ha hc
  | ret r h => exact h
  | andThen p f _ _ h1 h2 => exact keepsTo_andThen h2 h1

theorem reached_closed (h : Heap) (roots : List Ptr) : ClosedIn (Reached h roots) h :=
  fun a c ha hc _ hp b hb => .child a b c ha hc (hb ▸ hp)

/-- what each goroutine was given for itself, and what all of them were given; no `V` can be reached from two of these -/
structure Separate (h : Heap) (own : Nat → List Ptr) (common : List Ptr) : Prop where
  apart : ∀ i j a, i ≠ j → Reached h (own i) a → ¬ Reached h (own j) a
  noCommon : ∀ i a, Reached h (own i) a → ¬ Reached h common a

/-- each goroutine keeps to what it was given -/
def AllWork (E : Env) (S : SortFn) (D : DecFn) (w : World α) (own : Nat → List Ptr) (common : List Ptr) : Prop :=
  ∀ (i : Nat) p, w.threads[i]? = some p → Works E S D (Reached w.mem.heap (own i)) (Reached w.mem.heap common) Any p

theorem apart_of {E : Env} {S : SortFn} {D : DecFn} {w x : World α} {own : Nat → List Ptr} {common : List Ptr} (hsep : Separate w.mem.heap own common)
    (hw : AllWork E S D w own common) (h : World.Steps w x) : ApartRun (fun i => Reached w.mem.heap (own i)) (Reached w.mem.heap common) w x :=
  apart_steps hsep.apart hsep.noCommon (fun _ => reached_closed _ _) (reached_closed _ _) (fun i p hp => works_keepsTo (hw i p hp)) h

/-- Goroutines that read and change, each one what it can reach from its own values, which share nothing, and that read what they have in common:
however they are interleaved there is no data race; one that is done has the result, and has left its values in the state, that it would have alone;
what belongs to no goroutine (as do the common values), and the default options, are as before. -/
theorem C104 (E : Env) (S : SortFn) (D : DecFn) (w w' : World α) (own : Nat → List Ptr) (common : List Ptr) (hsep : Separate w.mem.heap own common)
    (hw : AllWork E S D w own common) (h : World.Steps w w') :
    ¬ w'.Race ∧ w'.mem.options = w.mem.options ∧
    (∀ (i : Nat) p r, w.threads[i]? = some p → w'.threads[i]? = some (.ret r) →
      r = (p.run w.mem).2 ∧ ∀ a, Reached w.mem.heap (own i) a → w'.mem.heap[a]? = (p.run w.mem).1.heap[a]?) ∧
    ∀ a, (∀ i, i < w.threads.length → ¬ Reached w.mem.heap (own i) a) → w'.mem.heap[a]? = w.mem.heap[a]? := by
  have ha := apart_of hsep hw h
  refine ⟨apart_no_race hsep.apart hsep.noCommon ha, ha.opts, fun i p r hp hr => ?_, ha.outside⟩
  obtain ⟨q, m, h1, -, h3, h4⟩ := ha.alone i p hp
  rw [hr] at h1
  cases h1
  rw [← h4]
  exact ⟨rfl, fun a h => (h3.cells a (.inl h)).symm⟩

/-- What each one may reach stays its own: no goroutine ever gets hold of a value of another. -/
theorem C104_separate (E : Env) (S : SortFn) (D : DecFn) (w w' : World α) (own : Nat → List Ptr) (common : List Ptr) (hsep : Separate w.mem.heap own common)
    (hw : AllWork E S D w own common) (h : World.Steps w w') : Separate w'.mem.heap own common := by
  have ha := apart_of hsep hw h
  have hr : ∀ i a, Reached w'.mem.heap (own i) a → Reached w.mem.heap (own i) a := by
    intro i a h
    induction h with
    | root a h => exact .root a h
    | child a b c _ hc hb ih => exact ha.closed i a c ih hc (some b) hb b rfl
  have hg : ∀ a, Reached w'.mem.heap common a → Reached w.mem.heap common a := by
    intro a h
    induction h with
    | root a h => exact .root a h
    | child a b c _ hc hb ih => exact .child a b c ih (by rw [← ha.common a ih]; exact hc) hb
  exact ⟨fun i j a hij h1 h2 => hsep.apart i j a hij (hr i a h1) (hr j a h2), fun i a h1 h2 => hsep.noCommon i a (hr i a h1) (hg a h2)⟩

/-- The order does not matter: all executions to the end leave the same memory. -/
theorem C104_order (E : Env) (S : SortFn) (D : DecFn) (w x y : World α) (own : Nat → List Ptr) (common : List Ptr)
    (hsep : Separate w.mem.heap own common) (hw : AllWork E S D w own common) (hx : World.Steps w x) (hy : World.Steps w y)
    (dx : Done x) (dy : Done y) : x.mem = y.mem ∧ x.threads = y.threads := by
  have ax := apart_of hsep hw hx
  have ay := apart_of hsep hw hy
  obtain ⟨-, ox, tx, ux⟩ := C104 E S D w x own common hsep hw hx
  obtain ⟨-, oy, ty, uy⟩ := C104 E S D w y own common hsep hw hy
  have done : ∀ (z : World α), Done z → z.threads.length = w.threads.length → ∀ i, i < w.threads.length → ∃ r, z.threads[i]? = some (.ret r) := by
    intro z dz hl i hi
    have hi' : i < z.threads.length := by omega
    obtain ⟨r, hr⟩ := dz _ (List.getElem_mem hi')
    exact ⟨r, by rw [List.getElem?_eq_getElem hi', hr]⟩
  have hheap : x.mem.heap = y.mem.heap := by
    apply List.ext_getElem?
    intro a
    by_cases hq : ∃ i, i < w.threads.length ∧ Reached w.mem.heap (own i) a
    · obtain ⟨i, hi, hr⟩ := hq
      obtain ⟨r, h1⟩ := done x dx ax.len i hi
      obtain ⟨s, h2⟩ := done y dy ay.len i hi
      rw [(tx i _ r (List.getElem?_eq_getElem hi) h1).2 a hr, (ty i _ s (List.getElem?_eq_getElem hi) h2).2 a hr]
    · have hq' : ∀ i, i < w.threads.length → ¬ Reached w.mem.heap (own i) a := fun i hi hr => hq ⟨i, hi, hr⟩
      rw [ux a hq', uy a hq']
  refine ⟨?_, ?_⟩
  · cases hxm : x.mem with
    | mk h1 o1 =>
      cases hym : y.mem with
      | mk h2 o2 =>
        rw [hxm, hym] at hheap
        rw [hxm] at ox
        rw [hym] at oy
        dsimp only at hheap ox oy
        rw [hheap, ox, oy]
  · apply List.ext_getElem?
    intro i
    by_cases hi : i < w.threads.length
    · obtain ⟨r, h1⟩ := done x dx ax.len i hi
      obtain ⟨s, h2⟩ := done y dy ay.len i hi
      rw [h1, h2, (tx i _ r (List.getElem?_eq_getElem hi) h1).1, (ty i _ s (List.getElem?_eq_getElem hi) h2).1]
    · rw [List.getElem?_eq_none (by rw [ax.len]; omega), List.getElem?_eq_none (by rw [ay.len]; omega)]

/-- The calls that change are the functions of the heap model: their reads and writes have together the effect described there. -/
theorem C104_model (E : Env) (cl b : Bool) (v c : Ptr) (p : Param) (m : Mem) :
    (∀ a x, a < m.heap.length → (((aMake a x).run m).1.heap, ((aMake a x).run m).2) = (m.heap.set a x, .ok (some a))) ∧
    (((aSetLast E v c p).run m).1.heap, ((aSetLast E v c p).run m).2) = hatLast E m.heap v c p ∧
    (((aInsertLast b v c p).run m).1.heap, ((aInsertLast b v c p).run m).2) = hinsertLast b m.heap v c p ∧
    (((aAppendTo b v c).run m).1.heap, ((aAppendTo b v c).run m).2) = happendTo b m.heap v c ∧
    (((aDeleteLast E cl v p).run m).1.heap, ((aDeleteLast E cl v p).run m).2) = hdeleteLast E cl m.heap v p := by
  refine ⟨fun a x h => ?_, ?_, ?_, ?_, ?_⟩
  · rw [run_make x h]; rfl
  · rw [run_setLast]; rfl
  · rw [run_insertLast]; rfl
  · rw [run_appendTo]; rfl
  · rw [run_deleteLast]; rfl

/-- two arrays, and a boolean that both goroutines read; the first one makes a string (at an address it has for this), appends it to its array and
then reads it if the boolean is true, the second one deletes from its own array and reads it -/
def apartWorld : World Nat :=
  { mem := { heap := [.null, .arr [some 0], .null, .arr [some 2, some 2], .notExist, .bool true], options := {} },
    threads := [(aMake 4 (.str (asc "x"))).onOk fun c => (aAppendTo false (some 1) c).andThen fun _ => (aLook (some 5) .ok).onOk fun b =>
        if b = .bool true then aLook (some 1) fun | .arr xs => .ok xs.length | _ => .ok 0 else .ret .panic,
      (aDeleteLast sampleEnv false (some 3) (.int 0)).andThen fun _ => (aLook (some 5) .ok).onOk fun b =>
        if b = .bool true then aLook (some 3) fun | .arr xs => .ok xs.length | _ => .ok 0 else .ret .panic] }

def apartOwn : Nat → List Ptr
  | 0 => [some 1, some 4]
  | 1 => [some 3]
  | _ => []

theorem apart_reached : ∀ i a, Reached apartWorld.mem.heap (apartOwn i) a → (i = 0 ∧ (a = 0 ∨ a = 1 ∨ a = 4)) ∨ (i = 1 ∧ (a = 2 ∨ a = 3)) := by
  intro i a h
  induction h with
  | root a h =>
    match i, h with
    | 0, h =>
      simp [apartOwn] at h
      omega
    | 1, h => cases List.mem_singleton.1 h; exact .inr ⟨rfl, .inr rfl⟩
    | _ + 2, h => cases h
  | child a b c _ hc hb ih =>
    rcases ih with ⟨rfl, rfl | rfl | rfl⟩ | ⟨rfl, rfl | rfl⟩ <;> cases hc
    · cases hb
    · cases List.mem_singleton.1 hb; exact .inl ⟨rfl, .inl rfl⟩
    · cases hb
    · cases hb
    · simp [pointers] at hb; subst hb; exact .inr ⟨rfl, .inl rfl⟩

theorem apart_common : ∀ a, Reached apartWorld.mem.heap [some 5] a → a = 5 := by
  intro a h
  induction h with
  | root a h => cases List.mem_singleton.1 h; rfl
  | child a b c _ hc hb ih => subst ih; cases hc; cases hb

-- the hypotheses hold of them, and there is an execution to the end that leaves two elements in the first array and one in the second
example : Separate apartWorld.mem.heap apartOwn [some 5] ∧ AllWork sampleEnv insertionSort newFromString apartWorld apartOwn [some 5] ∧
    ∃ w, World.Steps apartWorld w ∧ w.result 0 = some (.ok 2) ∧ w.result 1 = some (.ok 1) ∧
      w.mem.heap = [.null, .arr [some 0, some 4], .null, .arr [some 2], .str (asc "x"), .bool true] := by
  refine ⟨⟨fun i j a hij h1 h2 => ?_, fun i a h1 h2 => ?_⟩, fun i p hp => ?_, ?_⟩
  · have := apart_reached i a h1
    have := apart_reached j a h2
    omega
  · have := apart_reached i a h1
    have := apart_common a h2
    omega
  · have o1 : Own (Reached apartWorld.mem.heap (apartOwn 0)) (some 1) := fun a h => by cases h; exact .root 1 (by simp [apartOwn])
    have o4 : Reached apartWorld.mem.heap (apartOwn 0) 4 := .root 4 (by simp [apartOwn])
    have o3 : Own (Reached apartWorld.mem.heap (apartOwn 1)) (some 3) := fun a h => by cases h; exact .root 3 (by simp [apartOwn])
    have o5 : Own (Reached apartWorld.mem.heap [some 5]) (some 5) := fun a h => by cases h; exact .root 5 (by simp)
    match i, hp with
    | 0, hp =>
      cases hp
      refine .andThen _ _ (.make _ _ o4 fun p hp => by cases hp) fun r hr => ?_
      cases r with
      | ok c =>
        refine .andThen _ _ (.append _ _ _ o1 (hr c rfl)) fun _ _ => .andThen _ _ (.look _ _ (.inr o5)) fun r _ => ?_
        cases r with
        | ok b =>
          dsimp only
          split
          · exact .look _ _ (.inl o1)
          · exact .ret _ trivial
        | _ => exact .ret _ trivial
      | _ => exact .ret _ trivial
    | 1, hp =>
      cases hp
      refine .andThen _ _ (.delete _ _ _ o3) fun _ _ => .andThen _ _ (.look _ _ (.inr o5)) fun r _ => ?_
      cases r with
      | ok b =>
        dsimp only
        split
        · exact .look _ _ (.inl o3)
        · exact .ret _ trivial
      | _ => exact .ret _ trivial
    | _ + 2, hp => cases hp
  · have h : ∃ w, apartWorld.exec [0, 1, 0, 1, 1, 0, 0, 0, 1, 0] = some w ∧ w.result 0 = some (.ok 2) ∧ w.result 1 = some (.ok 1) ∧
        w.mem.heap = [.null, .arr [some 0, some 4], .null, .arr [some 2], .str (asc "x"), .bool true] :=
      ⟨_, rfl, by decide +kernel, by decide +kernel, by decide +kernel⟩
    obtain ⟨w, h1, h2⟩ := h
    exact ⟨w, exec_steps _ (.refl _) h1, h2⟩

/-- To share nothing is needed: two arrays with the same object as an element are different values, each changed by its own goroutine, and yet there
is a data race when both of them change the member of that object. -/
theorem C104_shared (E : Env) : ∃ (m : Mem) (p q : Act Ptr), p = (aGet E false (some 2) [.int 0]).onOk (fun o => aSetLast E o (some 0) (.str (asc "a"))) ∧
    q = (aGet E false (some 3) [.int 0]).onOk (fun o => aSetLast E o (some 0) (.str (asc "b"))) ∧
    m.heap = [.null, .obj 0 [] none, .arr [some 1], .arr [some 1]] ∧
    ∃ w, World.Steps { mem := m, threads := [p, q] } w ∧ w.Race := by
  refine ⟨⟨[.null, .obj 0 [] none, .arr [some 1], .arr [some 1]], {}⟩, _, _, rfl, rfl, rfl, ?_⟩
  refine ⟨_, exec_steps [0, 1, 0] (.refl _) rfl, 0, 1, _, _, (.node 1, true), (.node 1, false), by decide, rfl, rfl, rfl, rfl, rfl, .inl rfl⟩

end JV
