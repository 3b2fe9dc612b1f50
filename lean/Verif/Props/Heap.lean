import Verif.Proofs.Forest
import Verif.Proofs.HeapEdges
import Verif.Proofs.MarshalReturns
import Verif.Props.Compare
import Verif.Props.Modify
/-!
C38, C39, C47, C52 and C43 on the heap: pointers that are shared, and values put below themselves.
-/
namespace JV
open Spec

/-! ### C38 -/

/-- Import of a `*V` (or New): the copy shows the same tree (nil children become NotExist values), consists of new objects only, each in
one place, and no object that existed before is changed. -/
theorem C38_copy {h : Heap} {p : Ptr} {v : V} {F : List Nat} (hs : Hangs h p v F) (n : Nat) (hn : F.length < n) :
    ∃ q G, (hdeepCopy n h p).2 = .ok q ∧ Hangs (hdeepCopy n h p).1 q (copied v) G ∧ G.Nodup ∧ (∀ a ∈ G, h.length ≤ a) ∧
      (∀ a, a < h.length → (hdeepCopy n h p).1[a]? = h[a]?) ∧ Hangs (hdeepCopy n h p).1 p v F := by
  obtain ⟨q, hq, ext, G, h1, h2, h3, h4⟩ := hdeepCopy_fresh n hs hn
  simp only at h1 h2
  refine ⟨q, G, hq, h2, h3, h4, fun a ha => ?_, ?_⟩
  · rw [h1, List.getElem?_append_left ha]
  · rw [h1]; exact shows_prefix hs

/-- the copy answers every read like the original -/
theorem C38_observed (v : V) (h : Her (· ≠ .nilp) v) : SameObs v (copied v) := copied_sameObs h
/-- the copy is Equal to the original, if no nil and no NotExist is stored in it (such values are not Equal to anything, see C32) -/
theorem C38_equal (D : DecFn) (v : V) (hs : Her Solid v) (hk : Her KeysNodup v) : equal D v (copied v) = true ∧ equal D (copied v) v = true :=
  have h : equal D v (copied v) = true := C32_same D v (copied v) hk (copied_her copied_keysNodup hk) hs (copied_same v hs hk)
  ⟨h, by rw [← C32_symmetric D v (copied v) hk (copied_her copied_keysNodup hk)]; exact h⟩

/-- Afterwards the original and the copy have nothing to do with each other. One part of the program goes on with the pointers `ps` that
existed before, the other with the copy, each with whatever its own calls return; no call of one part changes anything that the other
part can see, through any pointer it holds. -/
theorem C38_independent {E : Env} {h0 h : Heap} {ps : List Ptr} {p q : Ptr} {n : Nat} {held : Bool → List Ptr} (hV : Valid h0) (hps : ∀ x ∈ ps, ValidPtr h0 x) (hp : p ∈ ps)
    (hc : (hdeepCopy n h0 p).2 = .ok q) (ht : TwoParts E (hdeepCopy n h0 p).1 ps [q] h held)
    (part : Bool) (op : HOp) (ha : ∀ x ∈ op.args, x ∈ held part) (x : Ptr) (hx : x ∈ held (!part)) :
    SameBelow h (op.run E h).1 x ∧ (∀ m, hread m (op.run E h).1 x = hread m h x) := by
  obtain ⟨w, hw⟩ := hdeepCopy_stays n h0 p hV (hps p hp)
  have hlt : ∀ a, a < h0.length → (hdeepCopy n h0 p).1[a]? = h0[a]? := fun a ha => w.frame a (fun h => h) ha
  have hA0 : PartsApart (hdeepCopy n h0 p).1 (fun part => if part then [q] else ps) (fun s => if s then Grown Nothing h0 (hdeepCopy n h0 p).1 else (· < h0.length)) := by
    refine ⟨?_, ?_, ?_⟩
    · intro s
      cases s
      · exact selfContained_frame hV hlt
      · exact w.closed
    · intro a h1 h2
      simp only [if_true, Bool.false_eq_true, if_false] at h1 h2
      rcases h1 with h1 | h1
      · exact h1
      · omega
    · intro s x hx
      cases s
      · exact hps x hx
      · simp only [if_true, List.mem_singleton] at hx
        subst hx
        exact hw x hc
  obtain ⟨S, hA⟩ := twoParts_apart ht hA0
  have hsb := sameBelow_of_region (hA.closed (!part)) (apart_step (E := E) hA part op ha).1 (hA.ptrs (!part) x hx)
  exact ⟨hsb, fun m => sameBelow_read m hsb⟩

-- `{"a":[null,null]}` where both elements are one object (address 0): the copy has an object for each place
example : hdeepCopy 4 [.null, .arr [some 0, some 0], .obj 1 [⟨asc "a", 1, some 1⟩] none] (some 2) =
    ([.null, .arr [some 0, some 0], .obj 1 [⟨asc "a", 1, some 1⟩] none, .null, .null, .arr [some 3, some 4], .obj 1 [⟨asc "a", 1, some 5⟩] none], .ok (some 6)) := by
  decide +kernel
example : Hangs [.null, .arr [some 0, some 0], .obj 1 [⟨asc "a", 1, some 1⟩] none] (some 2) (.obj 1 [⟨asc "a", 1, .arr [.null, .null]⟩] none) ([2] ++ ([1] ++ ([0] ++ ([0] ++ [])) ++ [])) :=
  .node 2 _ _ _ rfl ⟨rfl, rfl, rfl⟩ (.cons (some 1) (.arr [.null, .null]) ([1] ++ ([0] ++ ([0] ++ []))) [] [] [] (.node 1 _ _ _ rfl trivial
    (.cons (some 0) .null [0] _ _ _ (.node 0 _ _ [] rfl trivial .nil) (.cons (some 0) .null [0] _ _ _ (.node 0 _ _ [] rfl trivial .nil) .nil))) .nil)

/-- a heap with `{"a":[]}` (objects 1 and 0) and its copy (3 and 2) -/
def sampleHeap : Heap := [.arr [], .obj 1 [⟨asc "a", 1, some 0⟩] none]
theorem sampleHeap_valid : Valid sampleHeap := by
  intro a ha
  have : a = 0 ∨ a = 1 := by simp [sampleHeap] at ha; omega
  rcases this with rfl | rfl
  · exact ⟨_, rfl, by simp [kids]⟩
  · refine ⟨_, rfl, ?_⟩
    intro b hb
    simp [kids] at hb
    subst hb
    decide
-- the part that has the copy deletes in it, and the original reads as before
example : ((HOp.delete false (some 3) [.str (asc "a")]).run sampleEnv (hdeepCopy 3 sampleHeap (some 1)).1).1 =
    sampleHeap ++ [.arr [], .obj 1 [] none] := by decide +kernel
example : hread 5 ((HOp.delete false (some 3) [.str (asc "a")]).run sampleEnv (hdeepCopy 3 sampleHeap (some 1)).1).1 (some 1) = hread 5 (hdeepCopy 3 sampleHeap (some 1)).1 (some 1) :=
  (C38_independent (ps := [some 1, some 0]) sampleHeap_valid (by intro x hx a ha; subst ha; simp at hx; rcases hx with rfl | rfl <;> decide) (p := some 1) (by simp) (q := some 3) (n := 3)
    (by decide +kernel) .start true (.delete false (some 3) [.str (asc "a")]) (by simp [HOp.args]) (some 1) (by simp)).2 5

/-! ### C39 -/

/-- Get, on any heap: it returns a pointer that is found below the receiver, before and after, and changes nothing but lower case
indexes. Without Caseless it changes nothing at all. -/
theorem C39_get {E : Env} {cl : Bool} {h : Heap} {v q : Ptr} {ps : List Param} (hr : (hget E cl h v ps).2 = .ok q) :
    (∃ l, Leads h v l q ∧ Leads (hget E cl h v ps).1 v l q) ∧ LowOnly h (hget E cl h v ps).1 := by
  obtain ⟨h1, h2⟩ := hget_got (E := E) (cl := cl) ps (h := h) (v := v)
  obtain ⟨l, hl⟩ := h2 q hr
  exact ⟨⟨l, hl, lowOnly_leads (h := (hget E cl h v ps).1) h1.symm hl⟩, h1⟩

/-- Set, Insert and Append, on any heap a program can build: when the call succeeds it returns the child pointer itself, exactly one object
that existed before is written, it is the receiver or below it, and the child is below it afterwards. When it fails nothing that existed
is changed. -/
theorem C39_put {E : Env} (k : Put) {h : Heap} (hV : Valid h) {v c : Ptr} (hv : ValidPtr h v) (ps : List Param) :
    ((∀ y, y < h.length → (k.onHeap E h v c ps).1[y]? = h[y]?) ∧ ∀ q, (k.onHeap E h v c ps).2 ≠ .ok q) ∨
    ((k.onHeap E h v c ps).2 = .ok c ∧ ∃ a d, v = some a ∧ Reaches h a d ∧ d < h.length ∧ (∀ y, y < h.length → y ≠ d → (k.onHeap E h v c ps).1[y]? = h[y]?) ∧
      ∀ x, c = some x → StrictlyBelow (k.onHeap E h v c ps).1 d x) :=
  put_stores k ps hV hv

/-- The same seen from the root, for values each of which has one place: a call on the pointer `q` found at `l` below the root `p` has the
effect on the root's tree that the tree model of C19-C27 gives it, and the very pointer `c` is then found at the place. -/
theorem C39_put_visible {E : Env} {h : Heap} {p v c tc roots l q w} {k : Put} {ps : List Param} (hf : Forest h ((p, v) :: (c, tc) :: roots)) (hl : Leads h p l q) (hw : v.at l = some w)
    {m : List Step} (hm : (k.onTree E w tc ps).2 = .ok m) :
    (k.onHeap E h q c ps).2 = .ok c ∧ Leads (k.onHeap E h q c ps).1 p (l ++ m) c ∧
      Forest (k.onHeap E h q c ps).1 ((p, (v.modify (fun w => k.onTree E w tc ps) l).1) :: roots) := by
  have := forest_put (E := E) (k := k) (ps := ps) hf hl hw
  rw [hm] at this
  exact ⟨this.1, this.2.1, this.2.2.2⟩

/-- Delete through a pointer is visible through the root as well -/
theorem C39_delete_visible {E : Env} {cl : Bool} {h : Heap} {p v roots l q w} {ps : List Param} (hf : Forest h ((p, v) :: roots)) (hl : Leads h p l q) (hw : v.at l = some w) :
    Forest (hdeleteAt E cl h q [] ps).1 ((p, (v.modify (fun w => deleteAt E cl w [] ps) l).1) :: roots) :=
  (forest_delete hf hl hw).1

/-- On any heap, shared or not: what the root shows at a place is what hangs below the pointer found there, so every change made through
that pointer is seen. -/
theorem C39_window {h : Heap} {p q : Ptr} {v : V} {F : List Nat} {l : List Step} (hs : Hangs h p v F) (hl : Leads h p l q) :
    ∃ w G, v.at l = some w ∧ Hangs h q w G ∧ ∀ x ∈ G, x ∈ F := by
  obtain ⟨w, hw⟩ := leads_at hs hl
  obtain ⟨G, h1, h2⟩ := leads_shows hs hw hl
  exact ⟨w, G, hw, h1, h2⟩

/-- A call changes nothing that cannot be reached from its receiver: a value that shares no object with the receiver reads the same as
before. -/
theorem C39_elsewhere {E : Env} {h : Heap} (hV : Valid h) (op : HOp) (ha : ∀ p ∈ op.args, ValidPtr h p) {x : Ptr} (hx : ValidPtr h x)
    (hd : ∀ a r b, x = some a → op.receiver = some r → Reaches h a b → ¬ Reaches h r b) :
    SameBelow h (op.run E h).1 x ∧ ∀ n, hread n (op.run E h).1 x = hread n h x := by
  have : SameBelow h (op.run E h).1 x := by
    intro a b hxa hab
    refine run_receiver hV op ha b (reaches_in hV (hx a hxa) hab) ?_
    rintro ⟨r, hr, hrb⟩
    exact hd a r b hxa hr hab hrb
  exact ⟨this, fun n => sameBelow_read n this⟩

-- Get gives the array inside the object, and an append to it is seen through the object
example : hget sampleEnv false sampleHeap (some 1) [.str (asc "a")] = (sampleHeap, .ok (some 0)) := by decide +kernel
example : hread 4 (happendAt sampleEnv false (sampleHeap ++ [.null]) (some 0) (some 2) []).1 (some 1) = .ok (.obj 1 [⟨asc "a", 1, .arr [.null]⟩] none) := by decide +kernel
-- a child stored in two places is one object: a change through one place is seen through the other
example : hread 4 (hsetAt sampleEnv [.arr [], .obj 1 [⟨asc "a", 1, some 0⟩] none, .obj 1 [⟨asc "b", 1, some 0⟩] none, .null] (some 1) (some 3) [.str (asc "a"), .int 0]).1 (some 2) =
    .ok (.obj 1 [⟨asc "b", 1, .arr [.null]⟩] none) := by decide +kernel

/-- two roots: the object of `sampleHeap` and a null -/
theorem sampleTidy : Tidy sampleEnv (sampleHeap ++ [.null]) [(some 1, .obj 1 [⟨asc "a", 1, .arr []⟩] none), (some 2, .null)] := by
  have h1 := Tidy.new _ _ (.obj 1 [⟨asc "a", 1, .arr []⟩] none) (Tidy.start (E := sampleEnv))
  have h2 := Tidy.new _ _ .null h1
  exact .perm _ _ _ h2 (.swap _ _ _)
theorem sampleLeads : Leads (sampleHeap ++ [.null]) (some 1) [.key (asc "a")] (some 0) :=
  .step _ (some 0) _ _ _ (.key 1 1 [⟨asc "a", 1, some 0⟩] none (asc "a") ⟨asc "a", 1, some 0⟩ rfl (by decide)) (.here _)
-- append the null to the array through the pointer that Get returned
example : Leads ((Put.append false).onHeap sampleEnv (sampleHeap ++ [.null]) (some 0) (some 2) []).1 (some 1) ([.key (asc "a")] ++ [.idx 0]) (some 2) :=
  (C39_put_visible (tidy_forest sampleTidy) sampleLeads (w := .arr []) (by decide +kernel) (m := [.idx 0]) (by decide +kernel)).2.1
-- deleting in the object changes nothing in the separate null
example : SameBelow (sampleHeap ++ [.null]) ((HOp.delete false (some 1) [.str (asc "a")]).run sampleEnv (sampleHeap ++ [.null])).1 (some 2) := by
  have hn : ∀ b, Reaches (sampleHeap ++ [.null]) 2 b → b = 2 := by
    intro b hb
    cases hb with
    | refl => rfl
    | step _ x _ c hc hx _ => cases hc; cases hx
  have hv : Valid (sampleHeap ++ [.null]) := by
    intro a ha
    have : a = 0 ∨ a = 1 ∨ a = 2 := by simp [sampleHeap] at ha; omega
    rcases this with rfl | rfl | rfl
    · exact ⟨_, rfl, by simp [kids]⟩
    · refine ⟨_, rfl, ?_⟩
      intro b hb
      simp [kids] at hb
      subst hb
      decide
    · exact ⟨_, rfl, by simp [kids]⟩
  refine (C39_elsewhere hv (.delete false (some 1) [.str (asc "a")]) (by simp [HOp.args, ValidPtr, sampleHeap]) (x := some 2) (by simp [ValidPtr, sampleHeap]) ?_).1
  intro a r b ha hr hab hrb
  cases ha; cases hr
  have h2 := hn b hab
  subst h2
  have hin := reaches_in (h := sampleHeap ++ [.null]) (S := fun x => x = 0 ∨ x = 1) (a := 1) (b := 2) (by
    rintro x (rfl | rfl)
    · exact ⟨_, rfl, by simp [kids]⟩
    · exact ⟨_, rfl, by simp [kids]⟩) (.inr rfl) hrb
  omega

/-! ### C45 on the heap -/

/-- UnmarshalJSON and UnmarshalBinary through any pointer, in any heap, values that are shared or contain themselves included. If the text is refused
nothing changes. Otherwise the object of the receiver, wherever it is used, has the parsed value below it from then on, made of new objects
apart from itself, and no other object changes. -/
theorem C45_heap (E : Env) {h : Heap} {a : Nat} (ha : a < h.length) (b : Bytes) :
    (∃ e, unmarshal E b = .err e ∧ hload E h (some a) b = (h, .err e)) ∨
    (∃ t F, unmarshal E b = .ok t ∧ (hload E h (some a) b).2 = .ok none ∧ Hangs (hload E h (some a) b).1 (some a) t (a :: F) ∧ F.Nodup ∧ (∀ x ∈ F, h.length ≤ x) ∧
      ∀ y, y < h.length → y ≠ a → (hload E h (some a) b).1[y]? = h[y]?) := by
  rcases hload_cases E h (some a) b with ⟨t, h1, e⟩ | ⟨x, h1, e⟩
  · obtain ⟨h2, -, h3, K, h4, h5, h6⟩ := hoverwrite_is ha (unmarshal_exists h1).1
    rw [e]
    exact .inr ⟨t, K, h1, h2, h4, (List.nodup_cons.1 h5).2, h6, h3⟩
  · exact .inl ⟨x, h1, e⟩

/-- What was below the receiver before keeps its contents for those who hold a pointer to it, unless the receiver is below it. -/
theorem C45_old_children (E : Env) {h : Heap} (hV : Valid h) {a q : Nat} (hq : q < h.length) (hn : ¬ Reaches h q a) (b : Bytes) (n : Nat) :
    hread n (hload E h (some a) b).1 (some q) = hread n h (some q) := by
  refine sameBelow_read n ?_
  intro x y hx hy
  cases hx
  refine hload_frame (reaches_in hV hq hy) ?_
  intro he
  cases he
  exact hn hy

-- UnmarshalJSON of the array that is in an object: the object shows the new contents; the null that was in the array is still null for its holder
example : hread 4 (hload sampleEnv [.null, .arr [some 0], .obj 1 [⟨asc "a", 1, some 1⟩] none] (some 1) (asc "[true,false]")).1 (some 2) =
    .ok (.obj 1 [⟨asc "a", 1, .arr [.bool true, .bool false]⟩] none) := by decide +kernel
example : hread 4 (hload sampleEnv [.null, .arr [some 0], .obj 1 [⟨asc "a", 1, some 1⟩] none] (some 1) (asc "[true,false]")).1 (some 0) = .ok .null := by decide +kernel
example : hload sampleEnv [.null] (some 0) (asc "[true") = ([.null], .err .notArrayValue) := by decide +kernel

/-! ### C43 on the heap -/

/-- Get without Caseless leaves the whole heap as it is -/
theorem C43_heap_get (E : Env) (h : Heap) (v : Ptr) (ps : List Param) : (hget E false h v ps).1 = h := (hget_finds ps).1
/-- Caseless Get may build lower case indexes and changes nothing else, on the whole heap -/
theorem C43_heap_caseless_get (E : Env) (cl : Bool) (h : Heap) (v : Ptr) (ps : List Param) : LowOnly h (hget E cl h v ps).1 := (hget_got ps).1

/-! ### C47 -/

/-- C47 as stated. It is false: see `C47_counterexample`. -/
def C47_statement : Prop := ∀ (E : Env) (S : SortFn) (d : Opt) (opts : List MOpt) (h : Heap) (held : List Ptr), Program E h held → ∀ p ∈ held,
  ∃ n, hmarshal E S d n h p opts ≠ .diverge

theorem hmarshal_of_read {E : Env} {S : SortFn} {d : Opt} {opts : List MOpt} {h : Heap} {p : Ptr} {n : Nat} :
    hmarshal E S d n h p opts = .diverge ↔ hread n h p = .diverge := by
  unfold hmarshal
  cases hr : hread n h p with
  | ok t => simp only [reduceCtorEq, iff_false]; exact marshal_returns E S d t opts
  | _ => simp

theorem read_iff {h : Heap} (hV : Valid h) {a : Nat} (ha : a < h.length) : (∃ n, hread n h (some a) ≠ .diverge) ↔ ¬ ∃ b, Reaches h a b ∧ BelowItself h b := by
  constructor
  · rintro ⟨n, hn⟩
    rcases hread_closed hV n (some a) (by intro b hb; cases hb; exact ha) with ⟨v, hv⟩ | hd
    · obtain ⟨F, hF⟩ := shows_of_read n hv
      exact shows_acyclic hF
    · exact absurd hd hn
  · intro hac
    obtain ⟨v, F, hF⟩ := shows_of_acyclic hV h.length [] a ha List.nodup_nil (by simp) (by simp) hac (by simp)
    exact ⟨F.length + 1, by rw [hread_ok (F.length + 1) hF (by omega)]; simp⟩

/-- Exactly which values can be marshalled: Marshal comes back if and only if nothing below the value is below itself. -/
theorem C47_exact (E : Env) (S : SortFn) (d : Opt) (opts : List MOpt) {h : Heap} {held : List Ptr} (hp : Program E h held) {a : Nat} (ha : some a ∈ held) :
    (∃ n, hmarshal E S d n h (some a) opts ≠ .diverge) ↔ ¬ ∃ b, Reaches h a b ∧ BelowItself h b := by
  obtain ⟨hV, hh⟩ := program_valid hp
  rw [← read_iff hV (hh _ ha a rfl)]
  exact exists_congr fun n => not_congr hmarshal_of_read

/-- `v := NewObject(); v.Set(v).At("a")`: Marshal recurses until the stack is exhausted -/
theorem C47_counterexample : ¬ C47_statement := by
  intro hst
  have hp : Program sampleEnv [.obj 1 [⟨asc "a", 1, some 0⟩] none] [some 0, some 0] := by
    have h1 := Program.call (E := sampleEnv) _ _ (.new (.obj 0 [] none)) .start (by simp [HOp.args])
    have h2 := Program.call _ _ (.set (some 0) (some 0) [.str (asc "a")]) h1 (by decide +kernel)
    have e1 : ((HOp.set (some 0) (some 0) [.str (asc "a")]).run sampleEnv ((HOp.new (.obj 0 [] none)).run sampleEnv []).1) = ([.obj 1 [⟨asc "a", 1, some 0⟩] none], .ok (some 0)) := by decide +kernel
    rw [e1] at h2
    exact h2
  obtain ⟨n, hn⟩ := hst sampleEnv (fun _ _ => []) {} [] _ _ hp (some 0) (by simp)
  exact (C47_exact sampleEnv (fun _ _ => []) {} [] hp (by simp)).1 ⟨n, hn⟩ ⟨0, .refl 0, 0, _, rfl, by simp [kids], .refl 0⟩

/-- One call: if there was no cycle, there is none after a call that stores a child exactly when the call did not write to anything below
that child. (A failing call makes no cycle.) -/
theorem C47_step_partial {E : Env} (k : Put) {h : Heap} (hV : Valid h) {v c : Ptr} (hv : ValidPtr h v) (hc : ValidPtr h c) (ps : List Param) (hA : Acyclic h) :
    Acyclic (k.onHeap E h v c ps).1 ↔ SameBelow h (k.onHeap E h v c ps).1 c := by
  refine ⟨fun hA' => ?_, put_safe k ps hV hv hc hA⟩
  intro x b hx hxb
  have hbl : b < h.length := reaches_in hV (hc x hx) hxb
  rcases put_stores (E := E) k ps (c := c) hV hv with ⟨h1, -⟩ | ⟨-, a, d, -, -, hd, hf, hs⟩
  · exact h1 b hbl
  · by_cases hbd : b = d
    · subst hbd
      obtain ⟨y, cell, h2, h3, h4⟩ := hs x hx
      exact absurd ⟨y, cell, h2, h3, reaches_trans h4 (reaches_written hxb hf)⟩ (hA' b)
    · exact hf b hbl hbd

theorem careful_acyclic {E : Env} {h : Heap} {held : List Ptr} (hc : Careful E h held) : Valid h ∧ (∀ p ∈ held, ValidPtr h p) ∧ Acyclic h := by
  induction hc with
  | start =>
    refine ⟨fun a ha => absurd ha (by simp), fun p hp => absurd hp (by simp), ?_⟩
    rintro a ⟨b, cell, h1, -⟩
    simp at h1
  | call h held op _ ha hs ih =>
    obtain ⟨h1, h2, h3⟩ := ih
    have ha' : ∀ p ∈ op.args, ValidPtr h p := fun p hp => h2 p (ha p hp)
    obtain ⟨h4, h5, h6⟩ := run_valid (E := E) h1 op ha'
    refine ⟨h4, ?_, run_acyclic h1 op ha' h3 hs⟩
    intro p hp
    rcases List.mem_append.1 hp with hp | hp
    · cases hr : (op.run E h).2 with
      | ok q => rw [hr] at hp; rw [List.mem_singleton.1 hp]; exact h6 q hr
      | _ => rw [hr] at hp; cases hp
    · exact validPtr_mono h5 (h2 p hp)

/-- Every value that a program builds without putting something below itself can be marshalled, however often it is shared: there is a
tree `v`, and with enough stack Marshal gives what it gives for that tree. Missing from C47: values below themselves, for which it is
false. -/
theorem C47_partial (E : Env) (S : SortFn) (d : Opt) (opts : List MOpt) {h : Heap} {held : List Ptr} (hc : Careful E h held) {p : Ptr} (hp : p ∈ held) :
    ∃ v N, ∀ n, N ≤ n → hread n h p = .ok v ∧ hmarshal E S d n h p opts = marshal E S d v opts ∧ hmarshal E S d n h p opts ≠ .diverge := by
  obtain ⟨hV, hh, hA⟩ := careful_acyclic hc
  have : ∃ v F, Hangs h p v F := by
    cases p with
    | none => exact ⟨_, _, .nil⟩
    | some a => exact shows_of_acyclic hV h.length [] a (hh _ hp a rfl) List.nodup_nil (by simp) (by simp) (fun ⟨b, _, hb⟩ => hA b hb) (by simp)
  obtain ⟨v, F, hF⟩ := this
  refine ⟨v, F.length + 1, fun n hn => ?_⟩
  have hr := hread_ok n hF (by omega)
  have hm : hmarshal E S d n h p opts = marshal E S d v opts := by simp [hmarshal, hr]
  exact ⟨hr, hm, by rw [hm]; exact marshal_returns E S d v opts⟩

/-- one null stored twice in an array -/
theorem sampleCareful : Careful sampleEnv [.null, .arr [some 0, some 0]] [some 0, some 0, some 1, some 0] := by
  have leaf : ∀ (h h' : Heap), h[0]? = some .null → h'[0]? = some .null → SameBelow h h' (some 0) := by
    intro h h' h1 h2 a b ha hb
    cases ha
    cases hb with
    | refl => rw [h1, h2]
    | step _ x _ c hc hx _ => rw [h1] at hc; cases hc; cases hx
  have h1 : Careful sampleEnv [.null] [some 0] := .call _ _ (.new .null) .start (by simp [HOp.args]) sameBelow_none
  have h2 : Careful sampleEnv [.null, .arr []] [some 1, some 0] := .call _ _ (.new (.arr [])) h1 (by simp [HOp.args]) sameBelow_none
  have h3 : Careful sampleEnv [.null, .arr [some 0]] [some 0, some 1, some 0] := .call _ _ (.append false (some 1) (some 0) []) h2 (by simp [HOp.args]) (leaf _ _ rfl rfl)
  exact .call _ _ (.append false (some 1) (some 0) []) h3 (by simp [HOp.args]) (leaf _ _ rfl rfl)
example : ∃ v N, ∀ n, N ≤ n → hread n [.null, .arr [some 0, some 0]] (some 1) = .ok v := by
  obtain ⟨v, N, h⟩ := C47_partial sampleEnv (fun _ _ => []) {} [] sampleCareful (p := some 1) (by simp)
  exact ⟨v, N, fun n hn => (h n hn).1⟩

/-! ### C52 -/

/-- A program that stores every value in one place only: what the tree model predicts for each of its values is what hangs below the
pointer, no object is in two places, and Marshal (given enough stack) gives the text of the predicted tree. -/
theorem C52_trees (E : Env) (S : SortFn) (d : Opt) (opts : List MOpt) {h : Heap} {roots : List (Ptr × V)} (ht : Tidy E h roots) :
    Forest h roots ∧ ∀ p v, (p, v) ∈ roots → ∃ N, ∀ n, N ≤ n → hread n h p = .ok v ∧ hmarshal E S d n h p opts = marshal E S d v opts := by
  have hf := tidy_forest ht
  refine ⟨hf, fun p v hpv => ?_⟩
  obtain ⟨l1, l2, rfl⟩ := List.append_of_mem hpv
  obtain ⟨F, G, hF, -, -⟩ := forest_cons.1 (forest_perm hf List.perm_middle)
  refine ⟨F.length + 1, fun n hn => ?_⟩
  have hr := hread_ok n hF (by omega)
  exact ⟨hr, by simp [hmarshal, hr]⟩

/-- ... and calls return what the tree model says: the pointer at the predicted place, or the predicted error -/
theorem C52_get {E : Env} {cl : Bool} {h : Heap} {p v roots l q w} {ps : List Param} (ht : Tidy E h ((p, v) :: roots)) (hl : Leads h p l q) (hw : v.at l = some w) :
    match (resolve E cl w ps).2 with
    | .ok m => ∃ r, (hget E cl h q ps).2 = .ok r ∧ Leads (hget E cl h q ps).1 q m r
    | .err e => (hget E cl h q ps).2 = .err e
    | .panic => (hget E cl h q ps).2 = .panic
    | .diverge => (hget E cl h q ps).2 = .diverge :=
  (forest_get (tidy_forest ht) hl hw).2.2
theorem C52_put {E : Env} {h : Heap} {p v c tc roots l q w} {k : Put} {ps : List Param} (ht : Tidy E h ((p, v) :: (c, tc) :: roots)) (hl : Leads h p l q) (hw : v.at l = some w) :
    match (k.onTree E w tc ps).2 with
    | .ok m => (k.onHeap E h q c ps).2 = .ok c ∧ Leads (k.onHeap E h q c ps).1 p (l ++ m) c
    | .err e => (k.onHeap E h q c ps).2 = .err e
    | .panic => (k.onHeap E h q c ps).2 = .panic
    | .diverge => (k.onHeap E h q c ps).2 = .diverge := by
  have := forest_put (E := E) (k := k) (ps := ps) (tidy_forest ht) hl hw
  cases hr : (k.onTree E w tc ps).2 with
  | ok m => rw [hr] at this; exact ⟨this.1, this.2.1⟩
  | err e => rw [hr] at this; exact this.1
  | panic => rw [hr] at this; exact this.1
  | diverge => rw [hr] at this; exact this.1
theorem C52_delete {E : Env} {cl : Bool} {h : Heap} {p v roots l q w} {ps : List Param} (ht : Tidy E h ((p, v) :: roots)) (hl : Leads h p l q) (hw : v.at l = some w) :
    (hdeleteAt E cl h q [] ps).2 = match (deleteAt E cl w [] ps).2 with
      | .ok _ => .ok none
      | .err e => .err e
      | .panic => .panic
      | .diverge => .diverge :=
  (forest_delete (tidy_forest ht) hl hw).2.2

/-- UnmarshalJSON and UnmarshalBinary -/
theorem C52_load {E : Env} {h : Heap} {p v roots l q w} (ht : Tidy E h ((p, v) :: roots)) (hl : Leads h p l q) (hw : v.at l = some w) (b : Bytes) :
    (hload E h q b).2 = match (loadTree E b w).2 with
      | .ok _ => .ok none
      | .err e => .err e
      | .panic => .panic
      | .diverge => .diverge :=
  (forest_load (tidy_forest ht) hl hw b).2.2

/-- SortArray with any less function, given enough stack to read the elements: it does what it does on the predicted tree, by moving pointers
only -/
theorem C52_sort {E : Env} {S : SortFn} (hS : GoodSort S) (less : Option (V → V → Bool)) {h : Heap} {p v roots l q w} (ht : Tidy E h ((p, v) :: roots)) (hl : Leads h p l q)
    (hw : v.at l = some w) : ∃ N, ∀ n, N ≤ n →
    (hsortArray S n h q less).2 = (match (sortTree S less w).2 with
      | .ok _ => .ok none
      | .err e => .err e
      | .panic => .panic
      | .diverge => .diverge) ∧
    Tidy E (hsortArray S n h q less).1 ((p, (v.modify (fun w => sortTree S less w) l).1) :: roots) ∧
    (hsortArray S n h q less = (h, .ok none) ∨ ∃ ys, hsortArray S n h q less = hreorder h q ys) := by
  obtain ⟨F, G, hF, -, -⟩ := forest_cons.1 (tidy_forest ht)
  obtain ⟨K, hK, -⟩ := leads_shows hF hw hl
  refine ⟨K.length + 1, fun n hn => ?_⟩
  have hd := hsortArray_returns (S := S) less hK (n := n) (by omega)
  have hr := (forest_sort hS (tidy_forest ht) hl hw hd).2.2
  refine ⟨hr, .sort _ _ _ _ _ _ _ _ _ _ ht hl hw hS hd, ?_⟩
  cases less with
  | none => exact .inl rfl
  | some f =>
    refine .inr ?_
    cases q with
    | none => exact ⟨[], rfl⟩
    | some a =>
      have hk : ∃ r, (hsortArray S n h (some a) (some f)).2 = .ok r := by
        refine ⟨none, hr.trans ?_⟩
        cases w with
        | nilp => cases (shows_nilp hK).1
        | _ => rfl
      obtain ⟨r, hk⟩ := hk
      exact hsortArray_reorder hS hk

-- a reverse sort of the two elements of an array: the pointers are swapped
example : (hsortArray insertionSort 3 [.str (asc "1"), .str (asc "2"), .arr [some 0, some 1]] (some 2)
    (some fun a b => match a, b with | .str s, .str t => decide (t < s) | _, _ => false)).1[2]? = some (.arr [some 1, some 0]) := by decide +kernel

-- one step after `sampleTidy`: the null goes into the array
example : (Tidy sampleEnv ((Put.append false).onHeap sampleEnv (sampleHeap ++ [.null]) (some 0) (some 2) []).1 [(some 1, .obj 1 [⟨asc "a", 1, .arr [.null]⟩] none)]) :=
  .put _ _ _ _ _ [] _ _ (.arr []) (.append false) [] [.idx 0] sampleTidy sampleLeads (by decide +kernel) (by decide +kernel)
example : ∃ N, ∀ n, N ≤ n → hread n (sampleHeap ++ [.null]) (some 1) = .ok (.obj 1 [⟨asc "a", 1, .arr []⟩] none) := by
  obtain ⟨N, h⟩ := (C52_trees sampleEnv (fun _ _ => []) {} [] sampleTidy).2 (some 1) (.obj 1 [⟨asc "a", 1, .arr []⟩] none) (by simp)
  exact ⟨N, fun n hn => (h n hn).1⟩

end JV
