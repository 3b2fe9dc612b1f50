import Verif.Proofs.HeapFrame
import Verif.Proofs.RoundTrip
import Verif.Proofs.Api
/-!
The copy made by `deepCopy` shows the same as the original; independence of two parts of a program.
-/
namespace JV
open Spec

theorem lookup_copied (k : Bytes) (es : List Ent) : lookup k (copiedM es) = (lookup k es).map fun e => ⟨e.key, e.id, copied e.v⟩ := by
  induction es with
  | nil => rfl
  | cons e es ih =>
    cases e with
    | mk k' i v =>
      simp only [copiedM, lookup, Ent.key_mk]
      by_cases hk : k' = k
      · simp [hk]
      · simp [hk, ih]

theorem copied_child (v : V) (s : Step) : (copied v).child s = (v.child s).map copied := by
  cases v <;> cases s <;> simp only [copied, V.child, Option.map_none]
  · rw [copiedL_map, List.getElem?_map]
  · rw [lookup_copied]; simp only [Option.map_map]; congr 1

theorem copied_at : ∀ (l : List Step) (v : V), (copied v).at l = (v.at l).map copied
  | [], v => rfl
  | s :: l, v => by
    simp only [V.at, copied_child]
    cases v.child s with
    | none => rfl
    | some c => exact copied_at l c

theorem copied_info {v : V} (h : v ≠ .nilp) : info (copied v) = info v := by
  cases v with
  | nilp => exact absurd rfl h
  | arr xs => simp [copied, info, copiedL_map]
  | obj n kvs low => simp only [copied, info, copiedM_keys]
  | _ => rfl

theorem copied_sameObs {v : V} (h : Her (· ≠ .nilp) v) : SameObs v (copied v) := by
  intro l
  rw [copied_at]
  cases hv : v.at l with
  | none => rfl
  | some w => simp [copied_info (h l w hv)]

theorem copied_her {P : V → Prop} {v : V} (hP : ∀ w, P w → P (copied w)) (h : Her P v) : Her P (copied v) := by
  intro l c hc
  rw [copied_at] at hc
  cases hv : v.at l with
  | none => rw [hv] at hc; cases hc
  | some w => rw [hv] at hc; cases hc; exact hP w (h l w hv)

theorem keys_copied {es : List Ent} : (copiedM es).map Ent.key = es.map Ent.key := by
  have := congrArg (List.map Prod.fst) (copiedM_keys es)
  simpa [List.map_map, Function.comp_def] using this

theorem copied_keysNodup (w : V) (h : KeysNodup w) : KeysNodup (copied w) := by
  cases w with
  | obj n kvs low => simp only [copied, KeysNodup, keys_copied]; exact h
  | _ => exact h

theorem copied_same (v : V) (hv : Her Solid v) (hk : Her KeysNodup v) : Same v (copied v) := by
  induction v using kid_ind with
  | step v ih =>
    cases v with
    | arr xs =>
      refine .arr _ _ (by simp [copiedL_map]) fun i x y h1 h2 => ?_
      rw [copiedL_map, List.getElem?_map, h1] at h2
      cases h2
      have hc : (V.arr xs).child (.idx i) = some x := h1
      exact ih x (List.mem_of_getElem? h1) ((her_iff.1 hv).2 _ _ hc) ((her_iff.1 hk).2 _ _ hc)
    | obj n kvs low =>
      refine .obj _ _ _ _ _ _ (fun k => ?_) fun k c c' h1 h2 => ?_
      · have := copied_child (.obj n kvs low) (.key k)
        simp only [copied] at this
        simp only [members, this]
        cases (V.obj n kvs low).child (.key k) <;> rfl
      · have := copied_child (.obj n kvs low) (.key k)
        simp only [copied] at this
        simp only [members] at h1 h2
        rw [this, h1] at h2
        cases h2
        exact ih c (child_kid h1) ((her_iff.1 hv).2 _ _ h1) ((her_iff.1 hk).2 _ _ h1)
    | nilp => exact absurd rfl (her_iff.1 hv).1.1
    | _ => exact .scalar _ trivial

/-! ## programs -/

theorem hload_cases (E : Env) (h : Heap) (v : Ptr) (b : Bytes) : (∃ t, unmarshal E b = .ok t ∧ hload E h v b = hoverwrite h v t) ∨ (∃ e, unmarshal E b = .err e ∧ hload E h v b = (h, .err e)) := by
  unfold hload
  rcases goUnmarshal_cases E b with ⟨t, h1, h2⟩ | ⟨e, h1, h2⟩
  · exact .inl ⟨t, h1, by rw [h2]⟩
  · exact .inr ⟨e, h1, by rw [h2]⟩

theorem hoverwrite_stays {S : Nat → Prop} {h : Heap} (hS : SelfContained h S) {v : Ptr} (hv : In S v) (t : V) : Stays S h (hoverwrite h v t) := by
  obtain ⟨h1, h2⟩ := hbuild_within t h
  have w : Confined S h (hbuild h t).1 := region_mono h1 hS fun _ h => h.elim
  have hp : Stays S h ((hbuild h t).1, (.panic : R Ptr)) := ⟨w, fun p hp => by cases hp⟩
  unfold hoverwrite
  split
  · rename_i a n hn
    split
    · rename_i c hc
      refine stays_trans w (stays_write w.closed (.inl (hv a rfl)) ?_ (ok_in (in_none _)))
      exact region_kid w.closed (in_mono h2 (fun a ha => ha.imp (fun h => h.elim) id) n hn) hc
    · exact hp
  · exact hp

theorem hload_stays {E : Env} {S : Nat → Prop} {h : Heap} (hS : SelfContained h S) {v : Ptr} (hv : In S v) (b : Bytes) : Stays S h (hload E h v b) := by
  rcases hload_cases E h v b with ⟨t, -, e⟩ | ⟨x, -, e⟩
  · rw [e]; exact hoverwrite_stays hS hv t
  · rw [e]; exact stays_err hS

/-- nothing but the receiver changes -/
theorem hload_frame {E : Env} {h : Heap} {v : Ptr} {b : Bytes} {x : Nat} (hx : x < h.length) (hn : v ≠ some x) : (hload E h v b).1[x]? = h[x]? := by
  rcases hload_cases E h v b with ⟨t, -, e⟩ | ⟨y, -, e⟩
  · have := (hbuild_within t h).1.frame x id hx
    rw [e]
    unfold hoverwrite
    split
    · rename_i a n ha
      split
      · simp only
        rw [List.getElem?_set_ne (fun h => hn (by rw [h])), this]
      · exact this
    · exact this
  · rw [e]

theorem run_stays {E : Env} {h : Heap} {S : Nat → Prop} (hS : SelfContained h S) (op : HOp) (ha : ∀ p ∈ op.args, In S p) : Stays S h (op.run E h) := by
  cases op with
  | new v =>
    obtain ⟨h1, h2⟩ := hbuild_within v h
    exact stays_mono (T := Nothing) ⟨h1, ok_in h2⟩ hS fun _ h => h.elim
  | get cl v ps => exact hget_stays ps hS (ha v (by simp [HOp.args]))
  | set v c ps => exact hsetAt_stays ps hS (ha v (by simp [HOp.args])) (ha c (by simp [HOp.args]))
  | insert after v c ps => exact hinsertAt_stays ps [] hS (ha v (by simp [HOp.args])) (ha c (by simp [HOp.args]))
  | append beg v c ps => exact happendAt_stays ps hS (ha v (by simp [HOp.args])) (ha c (by simp [HOp.args]))
  | delete cl v ps => exact hdeleteAt_stays ps [] hS (ha v (by simp [HOp.args]))
  | sort v ys => exact hreorder_stays hS (ha v (by simp [HOp.args])) ys
  | copy fuel v => exact stays_mono (hdeepCopy_stays fuel h v hS (ha v (by simp [HOp.args]))) hS fun _ h => h.elim
  | load v b => exact hload_stays hS (ha v (by simp [HOp.args])) b

/-- the objects that can be reached from a pointer -/
def Below (h : Heap) (p : Ptr) : Nat → Prop := fun b => ∃ a, p = some a ∧ Reaches h a b

theorem reaches_snoc {h : Heap} {a b c : Nat} {cell : Cell} (h1 : Reaches h a b) (hb : h[b]? = some cell) (hc : some c ∈ kids cell) : Reaches h a c :=
  reaches_trans h1 (.step b c c cell hb hc (.refl c))

theorem below_closed {h : Heap} (hv : Valid h) {p : Ptr} (hp : ValidPtr h p) : SelfContained h (Below h p) := by
  rintro b ⟨a, rfl, hr⟩
  have hb := reaches_in hv (hp a rfl) hr
  obtain ⟨c, hc, hk⟩ := hv b hb
  exact ⟨c, hc, fun x hx => ⟨a, rfl, reaches_snoc hr hc hx⟩⟩

theorem valid_in {h : Heap} {p : Ptr} : ValidPtr h p ↔ In (· < h.length) p := Iff.rfl

/-- a call writes only to objects that can be reached from its receiver -/
theorem run_receiver {E : Env} {h : Heap} (hv : Valid h) (op : HOp) (ha : ∀ p ∈ op.args, ValidPtr h p) (b : Nat) (hb : b < h.length) (hn : ¬ Below h op.receiver b) :
    (op.run E h).1[b]? = h[b]? := by
  have stores_frame : ∀ {v c : Ptr} {r : Heap × R Ptr}, Stores h v c r → ¬ Below h v b → r.1[b]? = h[b]? := by
    rintro v c r (⟨h1, -⟩ | ⟨-, a, d, rfl, had, -, hf, -⟩) hn
    · exact h1 b hb
    · refine hf b hb ?_
      rintro rfl
      exact hn ⟨a, rfl, had⟩
  cases op with
  | new v => exact (hbuild_within v h).1.frame b id hb
  | get cl v ps =>
    have := ha v (by simp [HOp.args])
    exact (hget_stays ps (below_closed hv this) (fun a ha => ⟨a, ha, .refl a⟩)).1.frame b hn hb
  | set v c ps => exact stores_frame (hsetAt_stores ps) hn
  | insert after v c ps => exact stores_frame (hinsertAt_stores ps []) hn
  | append beg v c ps => exact stores_frame (happendAt_stores ps hv (ha v (by simp [HOp.args]))) hn
  | delete cl v ps =>
    have := ha v (by simp [HOp.args])
    exact (hdeleteAt_stays ps [] (below_closed hv this) (fun a ha => ⟨a, ha, .refl a⟩)).1.frame b hn hb
  | sort v ys =>
    have := ha v (by simp [HOp.args])
    exact (hreorder_stays (below_closed hv this) (fun a ha => ⟨a, ha, .refl a⟩) ys).1.frame b hn hb
  | copy fuel v => exact (hdeepCopy_stays fuel h v hv (ha v (by simp [HOp.args]))).1.frame b id hb
  | load v t =>
    refine hload_frame hb ?_
    rintro rfl
    exact hn ⟨b, rfl, .refl b⟩

/-- the results of a call: validity is kept -/
theorem run_valid {E : Env} {h : Heap} (hv : Valid h) (op : HOp) (ha : ∀ p ∈ op.args, ValidPtr h p) :
    Valid (op.run E h).1 ∧ h.length ≤ (op.run E h).1.length ∧ ∀ p, (op.run E h).2 = .ok p → ValidPtr (op.run E h).1 p := by
  obtain ⟨w, hp⟩ := run_stays (E := E) hv op ha
  have hg : ∀ a, Grown (· < h.length) h (op.run E h).1 a ↔ a < (op.run E h).1.length := by
    intro a
    simp only [Grown]
    have := w.len
    omega
  exact ⟨selfContained_congr w.closed hg, w.len, fun p hp' => in_mono (hp p hp') fun a ha => (hg a).1 ha⟩

theorem program_valid {E : Env} {h : Heap} {held : List Ptr} (hp : Program E h held) : Valid h ∧ ∀ p ∈ held, ValidPtr h p := by
  induction hp with
  | start => exact ⟨fun a ha => absurd ha (by simp), by simp⟩
  | call h held op _ ha ih =>
    obtain ⟨h1, h2⟩ := ih
    obtain ⟨h3, h4, h5⟩ := run_valid (E := E) h1 op fun p hp => h2 p (ha p hp)
    refine ⟨h3, fun p hp => ?_⟩
    rcases List.mem_append.1 hp with hp | hp
    · cases hr : (op.run E h).2 with
      | ok q => rw [hr] at hp; rw [List.mem_singleton.1 hp]; exact h5 q hr
      | _ => rw [hr] at hp; cases hp
    · intro a ha'; have := h2 p hp a ha'; omega

/-- two disjoint regions stay disjoint, whatever the calls do -/
structure PartsApart (h : Heap) (held : Bool → List Ptr) (S : Bool → Nat → Prop) : Prop where
  closed : ∀ s, SelfContained h (S s)
  disjoint : ∀ a, S true a → S false a → False
  ptrs : ∀ s, ∀ p ∈ held s, In (S s) p

theorem apart_step {E : Env} {h : Heap} {held : Bool → List Ptr} {S : Bool → Nat → Prop} (hA : PartsApart h held S) (part : Bool) (op : HOp) (ha : ∀ p ∈ op.args, p ∈ held part) :
    (∀ b, S (!part) b → (op.run E h).1[b]? = h[b]?) ∧
    ∃ S', PartsApart (op.run E h).1 (fun x => if x = part then (match (op.run E h).2 with | .ok p => [p] | _ => []) ++ held x else held x) S' := by
  obtain ⟨w, hp⟩ := run_stays (E := E) (hA.closed part) op fun p hp => hA.ptrs part p (ha p hp)
  have hfr : ∀ b, S (!part) b → (op.run E h).1[b]? = h[b]? := by
    intro b hb
    refine w.frame b (fun h => ?_) (selfContained_lt (hA.closed _) hb)
    cases part
    · exact hA.disjoint b hb h
    · exact hA.disjoint b h hb
  refine ⟨hfr, fun s => if s = part then Grown (S part) h (op.run E h).1 else S s, ?_, ?_, ?_⟩
  · intro s
    by_cases hs : s = part
    · subst hs; simp only [if_true]; exact w.closed
    · simp only [hs, if_false]
      have : s = !part := by cases s <;> cases part <;> simp_all
      subst this
      exact selfContained_frame (hA.closed _) hfr
  · intro a h1 h2
    have hd := hA.disjoint a
    have hl1 := fun h => selfContained_lt (hA.closed true) (a := a) h
    have hl2 := fun h => selfContained_lt (hA.closed false) (a := a) h
    cases part
    · simp only [Bool.true_eq_false, if_false, if_true] at h1 h2
      rcases h2 with h2 | h2
      · exact hd h1 h2
      · have := hl1 h1; omega
    · simp only [Bool.false_eq_true, if_false, if_true] at h1 h2
      rcases h1 with h1 | h1
      · exact hd h1 h2
      · have := hl2 h2; omega
  · intro s p hpm
    by_cases hs : s = part
    · subst hs
      simp only [if_true] at hpm ⊢
      rcases List.mem_append.1 hpm with hpm | hpm
      · cases hr : (op.run E h).2 with
        | ok q => rw [hr] at hpm; rw [List.mem_singleton.1 hpm]; exact hp q hr
        | _ => rw [hr] at hpm; cases hpm
      · exact in_grown (hA.ptrs s p hpm)
    · simp only [hs, if_false] at hpm ⊢
      exact hA.ptrs s p hpm

theorem twoParts_apart {E : Env} {h0 h : Heap} {left right : List Ptr} {held : Bool → List Ptr} (hp : TwoParts E h0 left right h held)
    {S0 : Bool → Nat → Prop} (hA : PartsApart h0 (fun part => if part then right else left) S0) : ∃ S, PartsApart h held S := by
  induction hp with
  | start => exact ⟨S0, hA⟩
  | call h held part op _ ha ih =>
    obtain ⟨S, hS⟩ := ih
    exact (apart_step hS part op ha).2

theorem sameBelow_of_region {h h' : Heap} {S : Nat → Prop} (hS : SelfContained h S) (hf : ∀ b, S b → h'[b]? = h[b]?) {p : Ptr} (hp : In S p) : SameBelow h h' p :=
  fun a b ha hr => hf b (reaches_in hS (hp a ha) hr)

/-! ## unchanged objects show the same -/

mutual
theorem hangs_reach {h : Heap} : ∀ {p v F}, Hangs h p v F → ∀ b ∈ F, ∃ a, p = some a ∧ Reaches h a b
  | _, _, _, .nil, b, hb => by cases hb
  | _, _, _, .node a c v F ha _ hk, b, hb => by
    rcases List.mem_cons.1 hb with rfl | hb
    · exact ⟨b, rfl, .refl b⟩
    · obtain ⟨x, hx, hr⟩ := hangsL_reach hk b hb
      exact ⟨a, rfl, .step a x b c ha hx hr⟩
theorem hangsL_reach {h : Heap} : ∀ {ps vs F}, HangsL h ps vs F → ∀ b ∈ F, ∃ a, some a ∈ ps ∧ Reaches h a b
  | _, _, _, .nil, b, hb => by cases hb
  | _, _, _, .cons p v F ps vs G hp hps, b, hb => by
    rcases List.mem_append.1 hb with hb | hb
    · obtain ⟨a, rfl, hr⟩ := hangs_reach hp b hb
      exact ⟨a, by simp, hr⟩
    · obtain ⟨a, ha, hr⟩ := hangsL_reach hps b hb
      exact ⟨a, by simp [ha], hr⟩
end

theorem sameBelow_hangs {h h' : Heap} {p v F} (hs : SameBelow h h' p) (hp : Hangs h p v F) : Hangs h' p v F :=
  shows_frame hp fun b hb => let ⟨a, ha, hr⟩ := hangs_reach hp b hb; hs a b ha hr

theorem hreadList_ext {f g : Ptr → R V} : ∀ {ps : List Ptr}, (∀ p ∈ ps, f p = g p) → hreadList f ps = hreadList g ps
  | [], _ => rfl
  | p :: ps, h => by
    simp only [hreadList]
    rw [h p (by simp), hreadList_ext fun q hq => h q (by simp [hq])]

theorem sameBelow_kid {h h' : Heap} {a : Nat} {c : Cell} (hs : SameBelow h h' (some a)) (hc : h[a]? = some c) {p : Ptr} (hp : p ∈ kids c) : SameBelow h h' p := by
  rintro x b rfl hr
  exact hs a b rfl (.step a x b c hc hp hr)

/-- every function that walks over the value gives the same result -/
theorem sameBelow_read {h h' : Heap} : ∀ (n : Nat) {p : Ptr}, SameBelow h h' p → hread n h' p = hread n h p := by
  intro n
  induction n with
  | zero => intros; rfl
  | succ n ih =>
    intro p hs
    cases p with
    | none => rfl
    | some a =>
      have ha := hs a a rfl (.refl a)
      simp only [hread, ha]
      cases hc : h[a]? with
      | none => rfl
      | some c =>
        cases c with
        | arr xs =>
          have : hreadList (hread n h') xs = hreadList (hread n h) xs := hreadList_ext fun p hp => ih (sameBelow_kid hs hc hp)
          simp only [this]
        | obj m kvs low =>
          have : hreadList (hread n h') (kvs.map HEnt.v) = hreadList (hread n h) (kvs.map HEnt.v) := hreadList_ext fun p hp => ih (sameBelow_kid hs hc hp)
          simp only [this]
        | _ => rfl

end JV
