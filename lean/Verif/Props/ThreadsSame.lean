import Verif.Proofs.ThreadsSame
import Verif.Proofs.ThreadsGet
import Verif.Proofs.ThreadsEdit
import Verif.Proofs.ThreadsSole
import Verif.Proofs.ThreadsFocus
import Verif.Proofs.ThreadsAppend
import Verif.Props.ThreadsMake
/-!
C106: what goroutines get that parse, copy and marshal documents at the same time.
-/
namespace JV
open Spec

variable {α : Type}

/-- A goroutine that knows the state of what it is given (`K`: nobody else may change that) ends, among others that keep to what is theirs, in a result and
a state that it can end in alone: the property `Q` of both that follows from `K`, whatever the addresses of its new objects. -/
theorem C106 (E : Env) (S : SortFn) (D : DecFn) (w x : World α) (own : Nat → List Ptr) (common : List Ptr) (hsep : Separate w.mem.heap own common)
    (hd : NoDangling w.mem.heap own common) (hw : AllMake E S D w own common) (h : World.Steps w x) (i : Nat) (p : Act α) (hp : w.threads[i]? = some p)
    (K : Known) (Q : Known → R α → Prop) (hq : Predicts w.mem.options Q K p)
    (hk : ∀ a c, K a = some c → w.mem.heap[a]? = some c ∧ ∀ j, j ≠ i → ¬ Reached w.mem.heap (own j) a) (r : R α) (hr : x.threads[i]? = some (.ret r)) :
    (∃ K', Q K' r ∧ ∀ a c, K' a = some c → x.mem.heap[a]? = some c) ∧
    ∃ K', Q K' (p.run w.mem).2 ∧ ∀ a c, K' a = some c → (p.run w.mem).1.heap[a]? = some c := by
  have hin : KnownIn K w.mem.heap := fun a c ha => (hk a c ha).1
  refine ⟨?_, predicts_run hq hin rfl⟩
  obtain ⟨F, K', -, h1, -, q, h2, h3⟩ := predicts_steps hsep.apart hsep.noCommon hd.1 hd.2 (fun _ => reached_closed _ _) (reached_closed _ _)
    (fun i p hp => makes_keepsG (hw i p hp)) h hp hq hin (fun a ha j hj => by
      cases hc : K a with
      | none => exact absurd hc ha
      | some c => exact (hk a c hc).2 j hj)
  rw [hr] at h2
  cases h2
  exact ⟨K', h3, h1⟩

theorem known_nothing (P : Nat → Cell → Prop) : ∀ a c, (fun _ => none : Known) a = some c → P a c := fun _ _ h => by cases h

/-- nobody else has what is common, or what is one's own -/
theorem known_from {h : Heap} {own : Nat → List Ptr} {common roots : List Ptr} (hsep : Separate h own common) (i : Nat) (hr : roots = common ∨ roots = own i) :
    ∀ a c, knownFrom h roots a = some c → h[a]? = some c ∧ ∀ j, j ≠ i → ¬ Reached h (own j) a := by
  intro a c ha
  obtain ⟨h1, h2⟩ := knownFrom_some ha
  refine ⟨h2, fun j hj hc => ?_⟩
  rcases hr with rfl | rfl
  · exact hsep.noCommon j a hc h1
  · exact hsep.apart i j a (Ne.symm hj) h1 hc

/-- Unmarshal, whatever happens meanwhile: the document of the text. -/
theorem C106_unmarshal (E : Env) (S : SortFn) (D : DecFn) (w x : World Ptr) (own : Nat → List Ptr) (common : List Ptr) (hsep : Separate w.mem.heap own common)
    (hd : NoDangling w.mem.heap own common) (hw : AllMake E S D w own common) (h : World.Steps w x) (i : Nat) (b : Bytes)
    (hp : w.threads[i]? = some (aUnmarshal E b)) (r : R Ptr) (hr : x.threads[i]? = some (.ret r)) :
    (∀ c t, goUnmarshal E b = .ok (c, t, none) → ∃ p, r = .ok p ∧ Hung (fun a => x.mem.heap[a]?) p t) ∧
    (∀ c t e, goUnmarshal E b = .ok (c, t, some e) → r = .err e) := by
  refine ⟨fun c t ht => ?_, fun c t e ht => ?_⟩
  · obtain ⟨⟨K', ⟨p, hr, -, hh⟩, hk⟩, -⟩ := C106 E S D w x own common hsep hd hw h i _ hp (fun _ => none) (Gives (fun _ => none) t)
      (by unfold aUnmarshal; rw [ht]; exact predicts_build t _) (known_nothing _) r hr
    exact ⟨p, hr, hung_mono hk hh⟩
  · obtain ⟨⟨K', hr, -⟩, -⟩ := C106 E S D w x own common hsep hd hw h i _ hp (fun _ => none) (fun _ r => r = .err e)
      (by unfold aUnmarshal; rw [ht]; rfl) (known_nothing _) r hr
    exact hr

/-- Unmarshal and Marshal, whatever happens meanwhile: the text that the document of the first text gives, as if it were done alone. -/
theorem C106_parse_print (E : Env) (S : SortFn) (D : DecFn) (w x : World (Bytes × Option Err)) (own : Nat → List Ptr) (common : List Ptr)
    (hsep : Separate w.mem.heap own common) (hd : NoDangling w.mem.heap own common) (hw : AllMake E S D w own common) (h : World.Steps w x) (i : Nat)
    (b : Bytes) (opts : List MOpt) (n : Nat) (hp : w.threads[i]? = some ((aUnmarshal E b).onOk fun p => aMarshal E S n p opts)) (c : Bytes) (t : V)
    (ht : goUnmarshal E b = .ok (c, t, none)) (hn : sizeOf t ≤ n) (r : R (Bytes × Option Err)) (hr : x.threads[i]? = some (.ret r)) :
    r = marshal E S w.mem.options t opts ∧ r = (((aUnmarshal E b).onOk fun p => aMarshal E S n p opts).run w.mem).2 := by
  obtain ⟨⟨_, h1, -⟩, ⟨_, h2, -⟩⟩ := C106 E S D w x own common hsep hd hw h i _ hp (fun _ => none) (fun _ r => r = marshal E S w.mem.options (noIndex t) opts)
    (by
      unfold aUnmarshal
      rw [ht]
      exact predicts_onOk (Q := fun K p => Extends (fun _ => none) K ∧ Hung K p t) (predicts_build t _) fun K p ⟨_, hh⟩ =>
        predicts_mono (fun _ _ h => h.2) (predicts_marshal E S opts hn hh)) (known_nothing _) r hr
  exact ⟨by rw [h1, noIndex_unmarshal ht], h1.trans h2.symm⟩

/-- A copy of a common document or of an own one, whatever happens meanwhile: the same document, and the same text. -/
theorem C106_copy (E : Env) (S : SortFn) (D : DecFn) (w x : World Ptr) (own : Nat → List Ptr) (common : List Ptr) (hsep : Separate w.mem.heap own common)
    (hd : NoDangling w.mem.heap own common) (hw : AllMake E S D w own common) (h : World.Steps w x) (i n : Nat) (v : Ptr) (t : V)
    (hv : v ∈ common ∨ v ∈ own i) (ht : Hung (fun a => w.mem.heap[a]?) v t) (hn : sizeOf t ≤ n) (hp : w.threads[i]? = some (aDeepCopy n v)) (r : R Ptr)
    (hr : x.threads[i]? = some (.ret r)) : ∃ p, r = .ok p ∧ Hung (fun a => x.mem.heap[a]?) p (copied t) := by
  obtain ⟨roots, hro, hvr⟩ : ∃ roots, (roots = common ∨ roots = own i) ∧ v ∈ roots := by
    rcases hv with hv | hv
    · exact ⟨_, .inl rfl, hv⟩
    · exact ⟨_, .inr rfl, hv⟩
  have ho : Own (Reached w.mem.heap roots) v := fun a e => .root a (e ▸ hvr)
  obtain ⟨⟨K', ⟨p, hr, -, hh⟩, hk⟩, -⟩ := C106 E S D w x own common hsep hd hw h i _ hp _ _ (predicts_copy t n hn (hung_from (fun _ => rfl) ht ho))
    (known_from hsep i hro) r hr
  exact ⟨p, hr, hung_mono hk hh⟩

theorem C106_copy_print (E : Env) (S : SortFn) (D : DecFn) (w x : World (Bytes × Option Err)) (own : Nat → List Ptr) (common : List Ptr)
    (hsep : Separate w.mem.heap own common) (hd : NoDangling w.mem.heap own common) (hw : AllMake E S D w own common) (h : World.Steps w x) (i n k : Nat)
    (v : Ptr) (t : V) (opts : List MOpt) (hv : v ∈ common ∨ v ∈ own i) (ht : Hung (fun a => w.mem.heap[a]?) v t) (hn : sizeOf t ≤ n) (hk : sizeOf (copied t) ≤ k)
    (hp : w.threads[i]? = some ((aDeepCopy n v).onOk fun p => aMarshal E S k p opts)) (r : R (Bytes × Option Err)) (hr : x.threads[i]? = some (.ret r)) :
    r = marshal E S w.mem.options (copied t) opts ∧ r = (((aDeepCopy n v).onOk fun p => aMarshal E S k p opts).run w.mem).2 := by
  obtain ⟨roots, hro, hvr⟩ : ∃ roots, (roots = common ∨ roots = own i) ∧ v ∈ roots := by
    rcases hv with hv | hv
    · exact ⟨_, .inl rfl, hv⟩
    · exact ⟨_, .inr rfl, hv⟩
  have ho : Own (Reached w.mem.heap roots) v := fun a e => .root a (e ▸ hvr)
  obtain ⟨⟨_, h1, -⟩, ⟨_, h2, -⟩⟩ := C106 E S D w x own common hsep hd hw h i _ hp (knownFrom w.mem.heap roots) (fun _ r => r = marshal E S w.mem.options (noIndex (copied t)) opts)
    (predicts_onOk (Q := fun K p => Extends (knownFrom w.mem.heap roots) K ∧ Hung K p (copied t)) (predicts_copy t n hn (hung_from (fun _ => rfl) ht ho)) fun K p ⟨_, hh⟩ =>
      predicts_mono (fun _ _ h => h.2) (predicts_marshal E S opts hk hh)) (known_from hsep i hro) r hr
  exact ⟨by rw [h1, noIndex_copied], h1.trans h2.symm⟩

/-- Reading an own or a common document, whatever happens meanwhile: Marshal gives what it gives at the start. -/
theorem C106_print (E : Env) (S : SortFn) (D : DecFn) (w x : World (Bytes × Option Err)) (own : Nat → List Ptr) (common : List Ptr)
    (hsep : Separate w.mem.heap own common) (hd : NoDangling w.mem.heap own common) (hw : AllMake E S D w own common) (h : World.Steps w x) (i n : Nat)
    (v : Ptr) (t : V) (opts : List MOpt) (hv : v ∈ common ∨ v ∈ own i) (ht : Hung (fun a => w.mem.heap[a]?) v t) (hn : sizeOf t ≤ n)
    (hp : w.threads[i]? = some (aMarshal E S n v opts)) (r : R (Bytes × Option Err)) (hr : x.threads[i]? = some (.ret r)) :
    r = marshal E S w.mem.options (noIndex t) opts := by
  obtain ⟨roots, hro, hvr⟩ : ∃ roots, (roots = common ∨ roots = own i) ∧ v ∈ roots := by
    rcases hv with hv | hv
    · exact ⟨_, .inl rfl, hv⟩
    · exact ⟨_, .inr rfl, hv⟩
  have ho : Own (Reached w.mem.heap roots) v := fun a e => .root a (e ▸ hvr)
  obtain ⟨⟨_, h1, -⟩, -⟩ := C106 E S D w x own common hsep hd hw h i _ hp (knownFrom w.mem.heap roots) _
    (predicts_marshal E S opts hn (hung_from (fun _ => rfl) ht ho)) (known_from hsep i hro) r hr
  exact h1.2

/-- Get in an own or a common document, whatever happens meanwhile: what it finds at the start. -/
theorem C106_get (E : Env) (S : SortFn) (D : DecFn) (w x : World Ptr) (own : Nat → List Ptr) (common : List Ptr) (hsep : Separate w.mem.heap own common)
    (hd : NoDangling w.mem.heap own common) (hw : AllMake E S D w own common) (h : World.Steps w x) (i : Nat) (v : Ptr) (t : V) (ps : List Param)
    (hv : v ∈ common ∨ v ∈ own i) (ht : Hung (fun a => w.mem.heap[a]?) v t) (hp : w.threads[i]? = some (aGet E false v ps)) (r : R Ptr)
    (hr : x.threads[i]? = some (.ret r)) :
    (∀ u, get E t ps = .ok u → ∃ q, r = .ok q ∧ Hung (fun a => x.mem.heap[a]?) q u) ∧ (∀ e, get E t ps = .err e → r = .err e) := by
  obtain ⟨roots, hro, hvr⟩ : ∃ roots, (roots = common ∨ roots = own i) ∧ v ∈ roots := by
    rcases hv with hv | hv
    · exact ⟨_, .inl rfl, hv⟩
    · exact ⟨_, .inr rfl, hv⟩
  have ho : Own (Reached w.mem.heap roots) v := fun a e => .root a (e ▸ hvr)
  obtain ⟨⟨K', ⟨rfl, hf⟩, hk⟩, -⟩ := C106 E S D w x own common hsep hd hw h i _ hp _ _ (predicts_get E ps (hung_from (fun _ => rfl) ht ho))
    (known_from hsep i hro) r hr
  refine ⟨fun u hu => ?_, fun e he => ?_⟩
  · rw [hu] at hf
    obtain ⟨q, rfl, hq⟩ := hf
    exact ⟨q, rfl, hung_mono hk hq⟩
  · rw [he] at hf
    exact hf

/-- Unmarshal, Get and Marshal, whatever happens meanwhile: the text of the part of the document, or the error of Get. -/
theorem C106_parse_get_print (E : Env) (S : SortFn) (D : DecFn) (w x : World (Bytes × Option Err)) (own : Nat → List Ptr) (common : List Ptr)
    (hsep : Separate w.mem.heap own common) (hd : NoDangling w.mem.heap own common) (hw : AllMake E S D w own common) (h : World.Steps w x) (i : Nat)
    (b : Bytes) (ps : List Param) (opts : List MOpt) (n : Nat)
    (hp : w.threads[i]? = some ((aUnmarshal E b).onOk fun p => (aGet E false p ps).onOk fun q => aMarshal E S n q opts)) (c : Bytes) (t : V)
    (ht : goUnmarshal E b = .ok (c, t, none)) (hn : sizeOf t ≤ n) (r : R (Bytes × Option Err)) (hr : x.threads[i]? = some (.ret r)) :
    (∀ u, get E t ps = .ok u → r = marshal E S w.mem.options u opts) ∧ (∀ e, get E t ps = .err e → r = .err e) := by
  have hu := noIndex_unmarshal ht
  obtain ⟨⟨_, h1, -⟩, -⟩ := C106 E S D w x own common hsep hd hw h i _ hp (fun _ => none)
    (fun _ r => (∀ u, get E t ps = .ok u → r = marshal E S w.mem.options u opts) ∧ (∀ e, get E t ps = .err e → r = .err e))
    (by
      unfold aUnmarshal
      rw [ht]
      refine predicts_onOk (Q := fun K p => Extends (fun _ => none) K ∧ Hung K p t) (predicts_build t _) fun K p ⟨_, hh⟩ => ?_
      refine predicts_andThen (fun K' x hx => ?_) (predicts_get E ps hh)
      obtain ⟨rfl, hx⟩ := hx
      cases hg : get E t ps with
      | ok u =>
        rw [hg] at hx
        obtain ⟨q, rfl, hq⟩ := hx
        obtain ⟨l, hl⟩ := get_at hg
        have hpt := at_part hl
        refine predicts_mono (fun _ _ h => ⟨fun u' he => ?_, fun e he => by cases he⟩) (predicts_marshal E S opts (Nat.le_trans hpt.2 hn) hq)
        cases he
        rw [h.2, hpt.1 hu]
      | err e => rw [hg] at hx; cases hx; exact ⟨(fun _ h => by cases h), (fun _ h => by cases h; rfl)⟩
      | panic => rw [hg] at hx; cases hx; exact ⟨(fun _ h => by cases h), (fun _ h => by cases h)⟩
      | diverge => rw [hg] at hx; cases hx; exact ⟨(fun _ h => by cases h), (fun _ h => by cases h)⟩) (known_nothing _) r hr
  exact h1

/-- Unmarshal of two texts and Equal or Contains of the documents, whatever happens meanwhile: the answer for the documents of the texts. -/
theorem C106_parse_compare (E : Env) (S : SortFn) (D : DecFn) (w x : World Bool) (own : Nat → List Ptr) (common : List Ptr)
    (hsep : Separate w.mem.heap own common) (hd : NoDangling w.mem.heap own common) (hw : AllMake E S D w own common) (h : World.Steps w x) (i : Nat)
    (b b' : Bytes) (n : Nat) (c c' : Bytes) (t u : V) (ht : goUnmarshal E b = .ok (c, t, none)) (hu : goUnmarshal E b' = .ok (c', u, none))
    (hn : sizeOf t ≤ n) (hk : sizeOf u ≤ n) (r : R Bool) (hr : x.threads[i]? = some (.ret r)) :
    (w.threads[i]? = some ((aUnmarshal E b).onOk fun p => (aUnmarshal E b').onOk fun q => aEqual D n p q) → r = .ok (equal D t u)) ∧
    (∀ path, w.threads[i]? = some ((aUnmarshal E b).onOk fun p => (aUnmarshal E b').onOk fun q => aContains E D n p q path) → r = containsAt E D t u path) := by
  have hpre : ∀ {Q : Known → R Bool → Prop} {f : Ptr → Ptr → Act Bool}, (∀ K p q, Hung K p t → Hung K q u → Predicts w.mem.options Q K (f p q)) →
      Predicts w.mem.options Q (fun _ => none) ((aUnmarshal E b).onOk fun p => (aUnmarshal E b').onOk fun q => f p q) := by
    intro Q f hf
    unfold aUnmarshal
    rw [ht, hu]
    exact predicts_onOk (Q := fun K p => Extends (fun _ => none) K ∧ Hung K p t) (predicts_build t _) fun K p ⟨_, h1⟩ =>
      predicts_onOk (Q := fun K' q => Extends K K' ∧ Hung K' q u) (predicts_build u _) fun K' q ⟨h2, h3⟩ => hf K' p q (hung_mono h2 h1) h3
  refine ⟨fun hp => ?_, fun path hp => ?_⟩
  · obtain ⟨⟨_, h1, -⟩, -⟩ := C106 E S D w x own common hsep hd hw h i _ hp (fun _ => none) (fun _ r => r = .ok (equal D (noIndex t) (noIndex u)))
      (hpre fun K p q h1 h2 => predicts_mono (fun _ _ h => h.2) (predicts_equal D hn hk h1 h2)) (known_nothing _) r hr
    rw [h1, noIndex_unmarshal ht, noIndex_unmarshal hu]
  · obtain ⟨⟨_, h1, -⟩, -⟩ := C106 E S D w x own common hsep hd hw h i _ hp (fun _ => none) (fun _ r => r = containsAt E D (noIndex t) (noIndex u) path)
      (hpre fun K p q h1 h2 => predicts_mono (fun _ _ h => h.2) (predicts_contains E D path hn hk h1 h2)) (known_nothing _) r hr
    rw [h1, noIndex_unmarshal ht, noIndex_unmarshal hu]

/-- Unmarshal, any number of calls of Set, Insert, Append and Delete on the value, with new documents, and Marshal, whatever happens meanwhile: the text of the document after
these calls, as if they were made alone. -/
theorem C106_parse_change_print (E : Env) (S : SortFn) (D : DecFn) (w x : World (Bytes × Option Err)) (own : Nat → List Ptr) (common : List Ptr)
    (hsep : Separate w.mem.heap own common) (hd : NoDangling w.mem.heap own common) (hw : AllMake E S D w own common) (h : World.Steps w x) (i : Nat)
    (b : Bytes) (l : List Alter) (opts : List MOpt) (n : Nat)
    (hp : w.threads[i]? = some ((aUnmarshal E b).onOk fun p => (aEdits E p l).onOk fun _ => aMarshal E S n p opts)) (c : Bytes) (t : V)
    (ht : goUnmarshal E b = .ok (c, t, none)) (hl : ∀ e ∈ l, e.Fresh) (hn : sizeOf (edited E t l) ≤ n)
    (r : R (Bytes × Option Err)) (hr : x.threads[i]? = some (.ret r)) :
    r = marshal E S w.mem.options (edited E t l) opts ∧
    r = (((aUnmarshal E b).onOk fun p => (aEdits E p l).onOk fun _ => aMarshal E S n p opts).run w.mem).2 := by
  obtain ⟨⟨_, h1, -⟩, ⟨_, h2, -⟩⟩ := C106 E S D w x own common hsep hd hw h i _ hp (fun _ => none)
    (fun _ r => r = marshal E S w.mem.options (noIndex (edited E t l)) opts)
    (by
      unfold aUnmarshal
      rw [ht]
      exact predicts_onOk (Q := fun K p => Root K p t) (predicts_root t _) fun K p hh =>
        predicts_onOk (Q := fun K _ => Root K p (edited E t l)) (predicts_edits E l hl hh) fun K' _ hh' =>
          predicts_mono (fun _ _ h => h.2) (predicts_marshal E S opts hn (root_hung hh'))) (known_nothing _) r hr
  exact ⟨by rw [h1, noIndex_edited E l hl (noIndex_unmarshal ht)], h1.trans h2.symm⟩

/-- Unmarshal, a call of Set with a new document and any path, and Marshal if Set had no error, whatever happens meanwhile: the text of the document after the call,
with the containers that were made on the way, or the error of Set. -/
theorem C106_parse_set_print (E : Env) (S : SortFn) (D : DecFn) (w x : World (Bytes × Option Err)) (own : Nat → List Ptr) (common : List Ptr)
    (hsep : Separate w.mem.heap own common) (hd : NoDangling w.mem.heap own common) (hw : AllMake E S D w own common) (h : World.Steps w x) (i : Nat)
    (b : Bytes) (u : V) (path : List Param) (opts : List MOpt) (n : Nat)
    (hp : w.threads[i]? = some ((aUnmarshal E b).onOk fun p => ((aBuild u).onOk fun c => aSetAt E p c path).onOk fun _ => aMarshal E S n p opts))
    (c : Bytes) (t : V) (ht : goUnmarshal E b = .ok (c, t, none)) (hu : noIndex u = u) (hn : sizeOf (set E t ⟨u, none⟩ path).1 ≤ n)
    (r : R (Bytes × Option Err)) (hr : x.threads[i]? = some (.ret r)) :
    (∀ l, (set E t ⟨u, none⟩ path).2 = .ok l → r = marshal E S w.mem.options (set E t ⟨u, none⟩ path).1 opts) ∧
    (∀ e, (set E t ⟨u, none⟩ path).2 = .err e → r = .err e) ∧
    r = (((aUnmarshal E b).onOk fun p => ((aBuild u).onOk fun c => aSetAt E p c path).onOk fun _ => aMarshal E S n p opts).run w.mem).2 := by
  obtain ⟨⟨_, h1, -⟩, ⟨_, h2, -⟩⟩ := C106 E S D w x own common hsep hd hw h i _ hp (fun _ => none)
    (fun _ r => r = match (setAt E t u path).2 with
      | .ok _ => marshal E S w.mem.options (noIndex (setAt E t u path).1) opts
      | .err e => .err e
      | .panic => .panic
      | .diverge => .diverge)
    (by
      unfold aUnmarshal
      rw [ht]
      refine predicts_onOk (Q := fun K p => Sole K p t) (predicts_sole t) fun K p hh => predicts_andThen (fun K' r hq => ?_) (sole_fresh E u path hh)
      obtain ⟨c, h1, h2⟩ := hq
      cases hx : (setAt E t u path).2 with
      | ok l =>
        rw [hx] at h2
        cases h2
        exact predicts_mono (fun _ _ h => h.2) (predicts_marshal E S opts hn (sole_hung h1))
      | err _ | panic | diverge =>
        rw [hx] at h2
        cases h2
        rfl) (known_nothing _) r hr
  refine ⟨fun l hl => ?_, fun e he => ?_, h1.trans h2.symm⟩
  · have hl : (setAt E t u path).2 = .ok l := hl
    rw [h1, hl]
    show marshal E S w.mem.options (noIndex (setAt E t u path).1) opts = marshal E S w.mem.options (setAt E t u path).1 opts
    rw [noIndex_setAt E hu path (noIndex_unmarshal ht)]
  · have he : (setAt E t u path).2 = .err e := he
    rw [h1, he]

/-- The same with any number of calls of Set, each with a new document and any path, also those that fail. -/
theorem C106_parse_sets_print (E : Env) (S : SortFn) (D : DecFn) (w x : World (Bytes × Option Err)) (own : Nat → List Ptr) (common : List Ptr)
    (hsep : Separate w.mem.heap own common) (hd : NoDangling w.mem.heap own common) (hw : AllMake E S D w own common) (h : World.Steps w x) (i : Nat)
    (b : Bytes) (l : List (V × List Param)) (opts : List MOpt) (n : Nat)
    (hp : w.threads[i]? = some ((aUnmarshal E b).onOk fun p => (aSets E p l).onOk fun _ => aMarshal E S n p opts)) (c : Bytes) (t : V)
    (ht : goUnmarshal E b = .ok (c, t, none)) (hl : ∀ y ∈ l, noIndex y.1 = y.1) (hn : sizeOf (setAll E t l) ≤ n)
    (r : R (Bytes × Option Err)) (hr : x.threads[i]? = some (.ret r)) :
    r = marshal E S w.mem.options (setAll E t l) opts ∧
    r = (((aUnmarshal E b).onOk fun p => (aSets E p l).onOk fun _ => aMarshal E S n p opts).run w.mem).2 := by
  obtain ⟨⟨_, h1, -⟩, ⟨_, h2, -⟩⟩ := C106 E S D w x own common hsep hd hw h i _ hp (fun _ => none)
    (fun _ r => r = marshal E S w.mem.options (noIndex (setAll E t l)) opts)
    (by
      unfold aUnmarshal
      rw [ht]
      exact predicts_onOk (Q := fun K p => Sole K p t) (predicts_sole t) fun K p hh =>
        predicts_onOk (Q := fun K _ => Sole K p (setAll E t l)) (sole_sets E l hh) fun K' _ hh' =>
          predicts_mono (fun _ _ h => h.2) (predicts_marshal E S opts hn (sole_hung hh'))) (known_nothing _) r hr
  exact ⟨by rw [h1, noIndex_setAll E l hl (noIndex_unmarshal ht)], h1.trans h2.symm⟩

/-- Unmarshal, any number of calls of Set, Insert, Append and Delete, each with any path, and Marshal, whatever happens meanwhile: the text of the document after these calls,
as if they were made alone. -/
theorem C106_parse_paths_print (E : Env) (S : SortFn) (D : DecFn) (w x : World (Bytes × Option Err)) (own : Nat → List Ptr) (common : List Ptr)
    (hsep : Separate w.mem.heap own common) (hd : NoDangling w.mem.heap own common) (hw : AllMake E S D w own common) (h : World.Steps w x) (i : Nat)
    (b : Bytes) (l : List PathEdit) (opts : List MOpt) (n : Nat)
    (hp : w.threads[i]? = some ((aUnmarshal E b).onOk fun p => (aPathEdits E p l).onOk fun _ => aMarshal E S n p opts)) (c : Bytes) (t : V)
    (ht : goUnmarshal E b = .ok (c, t, none)) (hl : ∀ y ∈ l, y.NewDoc) (hn : sizeOf (pathEdited E t l) ≤ n)
    (r : R (Bytes × Option Err)) (hr : x.threads[i]? = some (.ret r)) :
    r = marshal E S w.mem.options (pathEdited E t l) opts ∧
    r = (((aUnmarshal E b).onOk fun p => (aPathEdits E p l).onOk fun _ => aMarshal E S n p opts).run w.mem).2 := by
  obtain ⟨⟨_, h1, -⟩, ⟨_, h2, -⟩⟩ := C106 E S D w x own common hsep hd hw h i _ hp (fun _ => none)
    (fun _ r => r = marshal E S w.mem.options (noIndex (pathEdited E t l)) opts)
    (by
      unfold aUnmarshal
      rw [ht]
      exact predicts_onOk (Q := fun K p => Sole K p t) (predicts_sole t) fun K p hh =>
        predicts_onOk (Q := fun K _ => Sole K p (pathEdited E t l)) (sole_changes E l hh) fun K' _ hh' =>
          predicts_mono (fun _ _ h => h.2) (predicts_marshal E S opts hn (sole_hung hh'))) (known_nothing _) r hr
  exact ⟨by rw [h1, noIndex_changes E l hl (noIndex_unmarshal ht)], h1.trans h2.symm⟩

/-- one goroutine reads a text and writes it again, the other one copies a template that is common and writes that -/
def printWorld : World (Bytes × Option Err) :=
  { mem := makeWorld.mem,
    threads := [(aUnmarshal sampleEnv (asc "[true]")).onOk fun p => aMarshal sampleEnv insertionSort 9 p [],
      (aDeepCopy 9 (some 3)).onOk fun p => aMarshal sampleEnv insertionSort 9 p []] }

-- the hypotheses hold of them
example : Separate printWorld.mem.heap makeOwn [some 3] ∧ NoDangling printWorld.mem.heap makeOwn [some 3] ∧
    AllMake sampleEnv insertionSort newFromString printWorld makeOwn [some 3] := by
  have hl : makeWorld.mem.heap.length = 4 := rfl
  refine ⟨⟨fun i j a hij h1 h2 => ?_, fun i a h1 h2 => ?_⟩, ⟨fun i a h => ?_, fun a h => ?_⟩, fun i p hp => ?_⟩
  · have := make_reached i a h1
    have := make_reached j a h2
    omega
  · have := make_reached i a h1
    have := make_common a h2
    omega
  · have := make_reached i a h
    show a < makeWorld.mem.heap.length
    omega
  · have := make_common a h
    show a < makeWorld.mem.heap.length
    omega
  · have o3 : Own (Reached makeWorld.mem.heap [some 3]) (some 3) := fun a h => by cases h; exact .root 3 (by simp)
    have hm : ∀ (F G : Nat → Prop) q, Own F q →
        Makes sampleEnv insertionSort newFromString G (fun _ _ => True) F (aMarshal sampleEnv insertionSort 9 q []) :=
      fun F G q hq => .weaken _ (.call _ (.marshal 9 q [] (.inl hq))) fun _ _ _ => trivial
    match i, hp with
    | 0, hp =>
      cases hp
      refine .andThen _ _ (.unmarshal _) fun F' r hs hr => ?_
      cases r with
      | ok c => exact hm _ _ c (hr c rfl)
      | _ => exact .ret _ trivial
    | 1, hp =>
      cases hp
      refine .andThen _ _ (.copy _ _ (.inr o3)) fun F' r hs hr => ?_
      cases r with
      | ok c => exact hm _ _ c (hr c rfl)
      | _ => exact .ret _ trivial
    | _ + 2, hp => cases hp

example : Hung (fun a => printWorld.mem.heap[a]?) (some 3) (.arr [.bool true]) ∧ sizeOf (V.arr [.bool true]) ≤ 9 ∧
    sizeOf (copied (V.arr [.bool true])) ≤ 9 :=
  ⟨.arr 3 [some 2] _ rfl (.cons _ _ _ _ (.leaf 2 (.bool true) _ rfl rfl) .nil), by simp, by simp [copied, copiedL]⟩

example : ∃ c t, goUnmarshal sampleEnv (asc "[true]") = .ok (c, t, none) ∧ t = .arr [.bool true] := ⟨_, _, rfl, rfl⟩

-- code of these forms keeps to what is its own, whatever that is
example (E : Env) (S : SortFn) (D : DecFn) (F G : Nat → Prop) (b : Bytes) (ps : List Param) (opts : List MOpt) (n : Nat) :
    Makes E S D G (fun _ _ => True) F ((aUnmarshal E b).onOk fun p => (aGet E false p ps).onOk fun q => aMarshal E S n q opts) := by
  refine .andThen _ _ (.unmarshal _) fun F' r hs hr => ?_
  cases r with
  | ok c =>
    refine .andThen _ _ (.call _ (.get false c ps (hr c rfl))) fun F2 r hs hr => ?_
    obtain ⟨rfl, hr⟩ := hr
    cases r with
    | ok d => exact .weaken _ (.call _ (.marshal n d opts (.inl (hr d rfl)))) fun _ _ _ => trivial
    | _ => exact .ret _ trivial
  | _ => exact .ret _ trivial

example (E : Env) (S : SortFn) (D : DecFn) (F G : Nat → Prop) (b b' : Bytes) (n : Nat) :
    Makes E S D G (fun _ _ => True) F ((aUnmarshal E b).onOk fun p => (aUnmarshal E b').onOk fun q => aEqual D n p q) := by
  refine .andThen _ _ (.unmarshal _) fun F' r hs hr => ?_
  cases r with
  | ok c =>
    have hc := hr c rfl
    refine .andThen _ _ (.unmarshal _) fun F2 r hs hr => ?_
    cases r with
    | ok d => exact .weaken _ (.call _ (.equal n c d (.inl fun a ha => hs a (hc a ha)) (.inl (hr d rfl)))) fun _ _ _ => trivial
    | _ => exact .ret _ trivial
  | _ => exact .ret _ trivial

example : get sampleEnv (.arr [.bool true]) [.int 0] = .ok (.bool true) ∧ get sampleEnv (.arr [.bool true]) [.int 1] = .err .outOfRange := ⟨rfl, rfl⟩

theorem makes_alter (E : Env) (S : SortFn) (D : DecFn) (G F : Nat → Prop) (e : Alter) (p : Ptr) (hp : Own F p) :
    Makes E S D G (fun _ _ => True) F (e.act E p) := by
  have hb : ∀ (u : V) (f : Ptr → Act Ptr), (∀ F' c, Own F' p → Own F' c → Makes E S D G (fun _ _ => True) F' (f c)) →
      Makes E S D G (fun _ _ => True) F ((aBuild u).onOk f) := by
    intro u f hf
    refine .andThen _ _ (.build u) fun F' r hs hr => ?_
    cases r with
    | ok c => exact hf F' c (fun a ha => hs a (hp a ha)) (hr c rfl)
    | _ => exact .ret _ trivial
  cases e with
  | set u q => exact hb u _ fun F' c h1 h2 => .weaken _ (.setAt p c [q] h1 h2) fun _ _ _ => trivial
  | insert after u q => exact hb u _ fun F' c h1 h2 => .weaken _ (.insertAt after p c [q] h1 h2) fun _ _ _ => trivial
  | append beg u => exact hb u _ fun F' c h1 h2 => .weaken _ (.appendAt beg p c [] h1 h2) fun _ _ _ => trivial
  | delete q => exact .weaken _ (.deleteAt false p [q] hp) fun _ _ _ => trivial

theorem makes_edits (E : Env) (S : SortFn) (D : DecFn) (G : Nat → Prop) : ∀ (l : List Alter) (F : Nat → Prop) (p : Ptr), Own F p →
    Makes E S D G (fun F' _ => ∀ a, F a → F' a) F (aEdits E p l)
  | [], F, p, _ => .ret _ fun _ h => h
  | e :: l, F, p, hp => .andThen _ _ (makes_alter E S D G F e p hp) fun F' _ hs _ =>
      .weaken _ (makes_edits E S D G l F' p fun a ha => hs a (hp a ha)) fun _ _ h a ha => h a (hs a ha)

example (E : Env) (S : SortFn) (D : DecFn) (F G : Nat → Prop) (b : Bytes) (l : List Alter) (opts : List MOpt) (n : Nat) :
    Makes E S D G (fun _ _ => True) F ((aUnmarshal E b).onOk fun p => (aEdits E p l).onOk fun _ => aMarshal E S n p opts) := by
  refine .andThen _ _ (.unmarshal _) fun F' r hs hr => ?_
  cases r with
  | ok c =>
    refine .andThen _ _ (makes_edits E S D G l F' c (hr c rfl)) fun F2 r2 hs2 hr2 => ?_
    cases r2 with
    | ok d => exact .weaken _ (.call _ (.marshal n c opts (.inl fun a ha => hs2 a (hr c rfl a ha)))) fun _ _ _ => trivial
    | _ => exact .ret _ trivial
  | _ => exact .ret _ trivial

-- the second call fails, the others do not
example : edited sampleEnv (.arr [.bool true]) [.set .null (.int 1), .set .null (.int 5), .insert true (.arr [.null]) (.int 0), .append true (.bool false), .delete (.int 1)] =
    .arr [.bool false, .arr [.null], .null] := rfl

example : ∀ e ∈ [Alter.set .null (.int 1), .insert true (.arr [.null]) (.int 0), .append true (.bool false), .delete (.int 1)], e.Fresh := by
  intro e he
  simp only [List.mem_cons, List.not_mem_nil, or_false] at he
  rcases he with rfl | rfl | rfl | rfl <;> simp [Alter.Fresh, Param.isSlice, noIndex, noIndexL]

theorem makes_set (E : Env) (S : SortFn) (D : DecFn) (G F : Nat → Prop) (u : V) (path : List Param) (p : Ptr) (hp : Own F p) :
    Makes E S D G (fun _ _ => True) F ((aBuild u).onOk fun c => aSetAt E p c path) := by
  refine .andThen _ _ (.build u) fun F' r hs hr => ?_
  cases r with
  | ok c => exact .weaken _ (.setAt p c path (fun a ha => hs a (hp a ha)) (hr c rfl)) fun _ _ _ => trivial
  | _ => exact .ret _ trivial

theorem makes_sets (E : Env) (S : SortFn) (D : DecFn) (G : Nat → Prop) : ∀ (l : List (V × List Param)) (F : Nat → Prop) (p : Ptr), Own F p →
    Makes E S D G (fun F' _ => ∀ a, F a → F' a) F (aSets E p l)
  | [], F, p, _ => .ret _ fun _ h => h
  | (u, path) :: l, F, p, hp => .andThen _ _ (makes_set E S D G F u path p hp) fun F' _ hs _ =>
      .weaken _ (makes_sets E S D G l F' p fun a ha => hs a (hp a ha)) fun _ _ h a ha => h a (hs a ha)

-- code of these forms keeps to what is its own
example (E : Env) (S : SortFn) (D : DecFn) (F G : Nat → Prop) (b : Bytes) (l : List (V × List Param)) (opts : List MOpt) (n : Nat) :
    Makes E S D G (fun _ _ => True) F ((aUnmarshal E b).onOk fun p => (aSets E p l).onOk fun _ => aMarshal E S n p opts) := by
  refine .andThen _ _ (.unmarshal _) fun F' r hs hr => ?_
  cases r with
  | ok c =>
    refine .andThen _ _ (makes_sets E S D G l F' c (hr c rfl)) fun F2 r2 hs2 hr2 => ?_
    cases r2 with
    | ok d => exact .weaken _ (.call _ (.marshal n c opts (.inl fun a ha => hs2 a (hr c rfl a ha)))) fun _ _ _ => trivial
    | _ => exact .ret _ trivial
  | _ => exact .ret _ trivial

example (E : Env) (S : SortFn) (D : DecFn) (F G : Nat → Prop) (b : Bytes) (u : V) (path : List Param) (opts : List MOpt) (n : Nat) :
    Makes E S D G (fun _ _ => True) F ((aUnmarshal E b).onOk fun p => ((aBuild u).onOk fun c => aSetAt E p c path).onOk fun _ => aMarshal E S n p opts) := by
  refine .andThen _ _ (.unmarshal _) fun F' r hs hr => ?_
  cases r with
  | ok c =>
    refine .andThen _ _ (makes_set E S D G F' u path c (hr c rfl)) fun F2 r2 hs2 hr2 => ?_
    cases r2 with
    | ok d => exact .weaken _ (.call _ (.marshal n c opts (.inl fun a ha => hs2 a (hr c rfl a ha)))) fun _ _ _ => trivial
    | _ => exact .ret _ trivial
  | _ => exact .ret _ trivial

-- containers are made on the way, then one of them is changed; the third call fails
example : setAll sampleEnv (.arr [.bool true]) [(.null, [.int 1, .str (asc "k"), .int 0]), (.bool false, [.int 1, .str (asc "k"), .int 1]), (.null, [.int 1, .int 0, .int 0])] =
    .arr [.bool true, .obj 1 [⟨asc "k", 1, .arr [.null, .bool false]⟩] none] := rfl

example : (set sampleEnv (.arr [.bool true]) ⟨.null, none⟩ [.int 1, .str (asc "k"), .int 0]).2 = .ok [.idx 1, .key (asc "k"), .idx 0] ∧
    (set sampleEnv (.arr [.bool true]) ⟨.null, none⟩ [.int 1, .int 5]).2 = .err .outOfRange := ⟨rfl, rfl⟩

theorem makes_pathEdits (E : Env) (S : SortFn) (D : DecFn) (G : Nat → Prop) : ∀ (l : List PathEdit) (F : Nat → Prop) (p : Ptr), Own F p →
    Makes E S D G (fun F' _ => ∀ a, F a → F' a) F (aPathEdits E p l)
  | [], F, p, _ => .ret _ fun _ h => h
  | y :: l, F, p, hp => by
    have h1 : Makes E S D G (fun _ _ => True) F (y.act E p) := by
      cases y with
      | set u ps => exact makes_set E S D G F u ps p hp
      | insert after u ps =>
        refine .andThen _ _ (.build u) fun F' r hs hr => ?_
        cases r with
        | ok c => exact .weaken _ (.insertAt after p c ps (fun a ha => hs a (hp a ha)) (hr c rfl)) fun _ _ _ => trivial
        | _ => exact .ret _ trivial
      | append beg u ps =>
        refine .andThen _ _ (.build u) fun F' r hs hr => ?_
        cases r with
        | ok c => exact .weaken _ (.appendAt beg p c ps (fun a ha => hs a (hp a ha)) (hr c rfl)) fun _ _ _ => trivial
        | _ => exact .ret _ trivial
      | delete ps => exact .weaken _ (.deleteAt false p ps hp) fun _ _ _ => trivial
    exact .andThen _ _ h1 fun F' _ hs _ =>
      .weaken _ (makes_pathEdits E S D G l F' p fun a ha => hs a (hp a ha)) fun _ _ h a ha => h a (hs a ha)

example (E : Env) (S : SortFn) (D : DecFn) (F G : Nat → Prop) (b : Bytes) (l : List PathEdit) (opts : List MOpt) (n : Nat) :
    Makes E S D G (fun _ _ => True) F ((aUnmarshal E b).onOk fun p => (aPathEdits E p l).onOk fun _ => aMarshal E S n p opts) := by
  refine .andThen _ _ (.unmarshal _) fun F' r hs hr => ?_
  cases r with
  | ok c =>
    refine .andThen _ _ (makes_pathEdits E S D G l F' c (hr c rfl)) fun F2 r2 hs2 hr2 => ?_
    cases r2 with
    | ok d => exact .weaken _ (.call _ (.marshal n c opts (.inl fun a ha => hs2 a (hr c rfl a ha)))) fun _ _ _ => trivial
    | _ => exact .ret _ trivial
  | _ => exact .ret _ trivial

-- an array is made on the way, another element is put before its first one, and the first element of the document is deleted; the last call fails
example : pathEdited sampleEnv (.arr [.bool true]) [.set .null [.int 1, .int 0], .insert false (.bool false) [.int 1, .int 0], .delete [.int 0], .delete [.int 0, .int 7]] =
    .arr [.arr [.bool false, .null]] := rfl

-- Append makes the array that is missing, then adds to it
example : pathEdited sampleEnv (.obj 0 [] none) [.append false .null [.str (asc "k")], .append true (.bool true) [.str (asc "k")]] =
    .obj 1 [⟨asc "k", 1, .arr [.bool true, .null]⟩] none := rfl

example : ∀ y ∈ [PathEdit.append true (.arr [.null]) [.int 0], .set .null [.int 1, .int 0]], y.NewDoc := by
  intro y hy
  simp only [List.mem_cons, List.not_mem_nil, or_false] at hy
  rcases hy with rfl | rfl <;> simp [PathEdit.NewDoc, noIndex, noIndexL]

end JV
