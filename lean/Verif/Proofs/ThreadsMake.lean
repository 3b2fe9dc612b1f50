import Verif.Model.ThreadsMake
import Verif.Proofs.ThreadsWrite
/-! Code that stays in one part of the memory, which grows by what it allocates. -/
namespace JV
open Spec

variable {α β : Type}

/-- `F` and one more -/
def plus (F : Nat → Prop) (a : Nat) : Nat → Prop := fun b => F b ∨ b = a

/-- like `KeepsTo`, but the own part may grow -/
def KeepsG (G : Nat → Prop) (Q : (Nat → Prop) → R α → Prop) : (Nat → Prop) → Act α → Prop
  | F, .ret r => Q F r
  | F, .read a k => ∃ H, Part F G H ∧ H a ∧ ∀ c, (∀ x, c = some x → CellIn H x) → KeepsG G Q F (k c)
  | F, .readIndex a k => F a ∧ ∀ l, KeepsG G Q F (k l)
  | F, .readOptions k => ∀ o, KeepsG G Q F (k o)
  | F, .write a c k => F a ∧ CellIn F c ∧ KeepsG G Q F k
  | F, .writeIndex a _ k => F a ∧ KeepsG G Q F k
  | _, .writeOptions _ _ => False
  | F, .alloc c k => CellIn F c ∧ ∀ a, ¬ F a → ¬ G a → KeepsG G Q (plus F a) (k a)
termination_by structural _ p => p

theorem plus_left {F : Nat → Prop} {a b : Nat} (h : F b) : plus F a b := .inl h
theorem own_mono {F F' : Nat → Prop} (h : ∀ a, F a → F' a) {p : Ptr} (hp : Own F p) : Own F' p := fun a e => h a (hp a e)
theorem cellIn_mono {F F' : Nat → Prop} (h : ∀ a, F a → F' a) {c : Cell} (hc : CellIn F c) : CellIn F' c := fun p hp => own_mono h (hc p hp)

theorem keepsG_of {F G : Nat → Prop} {Q : R α → Prop} : ∀ {p : Act α}, KeepsTo F G Q p → KeepsG G (fun F' r => F' = F ∧ Q r) F p
  | .ret _, h => ⟨rfl, h⟩
  | .read _ _, ⟨H, h1, h2, h3⟩ => ⟨H, h1, h2, fun c hc => keepsG_of (h3 c hc)⟩
  | .readIndex _ _, h => ⟨h.1, fun l => keepsG_of (h.2 l)⟩
  | .readOptions _, h => fun o => keepsG_of (h o)
  | .write _ _ _, h => ⟨h.1, h.2.1, keepsG_of h.2.2⟩
  | .writeIndex _ _ _, h => ⟨h.1, keepsG_of h.2⟩
  | .writeOptions _ _, h => h.elim
  | .alloc _ _, h => h.elim

theorem keepsG_andThen {G : Nat → Prop} {Q : (Nat → Prop) → R α → Prop} {Q' : (Nat → Prop) → R β → Prop} {f : R α → Act β} :
    ∀ {p : Act α} {F : Nat → Prop}, KeepsG G Q F p → (∀ F' r, (∀ a, F a → F' a) → Q F' r → KeepsG G Q' F' (f r)) → KeepsG G Q' F (p.andThen f)
  | .ret r, F, h, hf => hf F r (fun _ h => h) h
  | .read _ _, _, ⟨H, h1, h2, h3⟩, hf => ⟨H, h1, h2, fun c hc => keepsG_andThen (h3 c hc) hf⟩
  | .readIndex _ _, _, h, hf => ⟨h.1, fun l => keepsG_andThen (h.2 l) hf⟩
  | .readOptions _, _, h, hf => fun o => keepsG_andThen (h o) hf
  | .write _ _ _, _, h, hf => ⟨h.1, h.2.1, keepsG_andThen h.2.2 hf⟩
  | .writeIndex _ _ _, _, h, hf => ⟨h.1, keepsG_andThen h.2 hf⟩
  | .writeOptions _ _, _, h, _ => h.elim
  | .alloc _ _, _, h, hf => ⟨h.1, fun a ha hg => keepsG_andThen (h.2 a ha hg) fun F' r hs => hf F' r fun b hb => hs b (.inl hb)⟩

theorem keepsG_mono {G : Nat → Prop} {Q Q' : (Nat → Prop) → R α → Prop} (hq : ∀ F r, Q F r → Q' F r) :
    ∀ {p : Act α} {F : Nat → Prop}, KeepsG G Q F p → KeepsG G Q' F p
  | .ret _, _, h => hq _ _ h
  | .read _ _, _, ⟨H, h1, h2, h3⟩ => ⟨H, h1, h2, fun c hc => keepsG_mono hq (h3 c hc)⟩
  | .readIndex _ _, _, h => ⟨h.1, fun l => keepsG_mono hq (h.2 l)⟩
  | .readOptions _, _, h => fun o => keepsG_mono hq (h o)
  | .write _ _ _, _, h => ⟨h.1, h.2.1, keepsG_mono hq h.2.2⟩
  | .writeIndex _ _ _, _, h => ⟨h.1, keepsG_mono hq h.2⟩
  | .writeOptions _ _, _, h => h.elim
  | .alloc _ _, _, h => ⟨h.1, fun a ha hg => keepsG_mono hq (h.2 a ha hg)⟩

theorem keepsG_onOk {F G : Nat → Prop} {Q : (Nat → Prop) → R α → Prop} {Q' : (Nat → Prop) → R β → Prop} {p : Act α} {f : α → Act β} (hp : KeepsG G Q F p)
    (hf : ∀ F' a, (∀ a, F a → F' a) → Q F' (.ok a) → KeepsG G Q' F' (f a)) (hr : ∀ F' r, (∀ b, r ≠ .ok b) → Q' F' r) : KeepsG G Q' F (p.onOk f) := by
  refine keepsG_andThen hp fun F' r hs hq => ?_
  cases r with
  | ok a => exact hf F' a hs hq
  | err e => exact hr _ _ fun _ => by simp
  | panic => exact hr _ _ fun _ => by simp
  | diverge => exact hr _ _ fun _ => by simp

/-- one step: the own part grows by at most one new address, all else is as before -/
theorem keepsG_step {F G : Nat → Prop} {Q : (Nat → Prop) → R α → Prop} {m m' : Mem} {p q : Act α} (hp : KeepsG G Q F p) (hc : ClosedIn F m.heap)
    (hg : ClosedIn G m.heap) (hF : ∀ a, F a → a < m.heap.length) (hG : ∀ a, G a → a < m.heap.length) (h : p.step m = some (m', q)) :
    ∃ F', (∀ a, F a → F' a) ∧ (∀ a, F' a → F a ∨ a = m.heap.length) ∧ KeepsG G Q F' q ∧ ClosedIn F' m'.heap ∧
      (∀ a, F' a → a < m'.heap.length) ∧ (∀ a, ¬ F' a → m'.heap[a]? = m.heap[a]?) ∧ m'.options = m.options ∧ m.heap.length ≤ m'.heap.length := by
  cases p with
  | ret r => cases h
  | read a k =>
    cases h
    obtain ⟨H, hH, hHa, hk⟩ := hp
    refine ⟨F, fun _ h => h, fun _ h => .inl h, hk _ fun x hx => ?_, hc, hF, fun _ _ => rfl, rfl, Nat.le_refl _⟩
    have hc : ClosedIn H m.heap := by rcases hH with rfl | rfl <;> assumption
    unfold Mem.node at hx
    cases hh : m.heap[a]? with
    | none => rw [hh] at hx; cases hx
    | some c => rw [hh] at hx; cases hx; exact cellIn_plain.2 (hc a c hHa hh)
  | readIndex a k => cases h; exact ⟨F, fun _ h => h, fun _ h => .inl h, hp.2 _, hc, hF, fun _ _ => rfl, rfl, Nat.le_refl _⟩
  | readOptions k => cases h; exact ⟨F, fun _ h => h, fun _ h => .inl h, hp _, hc, hF, fun _ _ => rfl, rfl, Nat.le_refl _⟩
  | write a c k =>
    have hs := keepsTo_step (F := F) (G := G) (Q := Any) (p := .write a c (.ret (.panic : R α))) ⟨hp.1, hp.2.1, trivial⟩ hc hg rfl
    cases h
    exact ⟨F, fun _ h => h, fun _ h => .inl h, hp.2.2, hs.2.1, fun b hb => by rw [hs.2.2.2.2]; exact hF b hb, hs.2.2.1, rfl, Nat.le_of_eq hs.2.2.2.2.symm⟩
  | writeIndex a l k =>
    have hs := keepsTo_step (F := F) (G := G) (Q := Any) (p := .writeIndex a l (.ret (.panic : R α))) ⟨hp.1, trivial⟩ hc hg rfl
    cases h
    exact ⟨F, fun _ h => h, fun _ h => .inl h, hp.2, hs.2.1, fun b hb => by rw [hs.2.2.2.2]; exact hF b hb, hs.2.2.1, hs.2.2.2.1, Nat.le_of_eq hs.2.2.2.2.symm⟩
  | writeOptions o k => exact hp.elim
  | alloc c k =>
    cases h
    have h1 : ¬ F m.heap.length := fun h => Nat.lt_irrefl _ (hF _ h)
    have h2 : ¬ G m.heap.length := fun h => Nat.lt_irrefl _ (hG _ h)
    refine ⟨plus F m.heap.length, fun _ h => .inl h, fun _ h => h, hp.2 _ h1 h2, fun a d ha hd => ?_, fun a ha => ?_, fun a ha => ?_, rfl, by simp⟩
    · rcases ha with ha | rfl
      · rw [List.getElem?_append_left (hF a ha)] at hd
        exact cellIn_mono (fun _ h => .inl h) (hc a d ha hd)
      · simp at hd
        subst hd
        exact cellIn_mono (fun _ h => .inl h) hp.1
    · rw [List.length_append, List.length_singleton]
      rcases ha with ha | rfl
      · have := hF a ha; omega
      · omega
    · have hne : a ≠ m.heap.length := fun e => ha (.inr e)
      dsimp only
      by_cases hlt : a < m.heap.length
      · rw [List.getElem?_append_left hlt]
      · rw [List.getElem?_eq_none (by simp; omega), List.getElem?_eq_none (by omega)]

theorem keepsG_access {F G : Nat → Prop} {Q : (Nat → Prop) → R α → Prop} {p : Act α} (hp : KeepsG G Q F p) {x : Loc × Bool} (h : p.access = some x) :
    (∃ a, F a ∧ (x.1 = .node a ∨ x.1 = .index a)) ∨ ((x.1 = .options ∨ ∃ a, G a ∧ x.1 = .node a) ∧ x.2 = false) := by
  cases p <;> cases h
  · obtain ⟨H, hH, hHa, -⟩ := hp
    rcases hH with rfl | rfl
    · exact .inl ⟨_, hHa, .inl rfl⟩
    · exact .inr ⟨.inr ⟨_, hHa, rfl⟩, rfl⟩
  · exact .inl ⟨_, hp.1, .inr rfl⟩
  · exact .inr ⟨.inl rfl, rfl⟩
  · exact .inl ⟨_, hp.1, .inl rfl⟩
  · exact .inl ⟨_, hp.1, .inr rfl⟩
  · exact hp.elim

/-! ## goroutines in parts that grow -/

/-- what the goroutines have now, `F`, beginning with `F0` -/
structure GrowRun (F0 : Nat → Nat → Prop) (G : Nat → Prop) (w x : World α) (F : Nat → Nat → Prop) : Prop where
  len : x.threads.length = w.threads.length
  size : w.mem.heap.length ≤ x.mem.heap.length
  opts : x.mem.options = w.mem.options
  grow : ∀ i a, F0 i a → F i a
  new : ∀ i a, F i a → F0 i a ∨ w.mem.heap.length ≤ a
  apart : ∀ i j a, i ≠ j → F i a → ¬ F j a
  noCommon : ∀ i a, F i a → ¬ G a
  bound : ∀ i a, F i a → a < x.mem.heap.length
  closed : ∀ i, ClosedIn (F i) x.mem.heap
  common : ∀ a, G a → x.mem.heap[a]? = w.mem.heap[a]?
  outside : ∀ a, a < w.mem.heap.length → (∀ i, i < w.threads.length → ¬ F0 i a) → x.mem.heap[a]? = w.mem.heap[a]?
  still : ∀ (i : Nat) q, x.threads[i]? = some q → KeepsG G (fun _ _ => True) (F i) q

theorem grow_step {F0 : Nat → Nat → Prop} {G : Nat → Prop} {w x y : World α} {F : Nat → Nat → Prop} (hbg : ∀ a, G a → a < w.mem.heap.length)
    (hg : ClosedIn G w.mem.heap) (ih : GrowRun F0 G w x F) (s : World.Step x y) :
    ∃ i p q m F', x.threads[i]? = some p ∧ p.step x.mem = some (m, q) ∧ y = { mem := m, threads := x.threads.set i q } ∧ (∀ a, F i a → F' a) ∧
      (∀ a, F' a → F i a ∨ a = x.mem.heap.length) ∧ (∀ a, ¬ F' a → m.heap[a]? = x.mem.heap[a]?) ∧ GrowRun F0 G w y (fun j => if j = i then F' else F j) := by
  obtain ⟨i, p, q, m, hp, hst⟩ := s
  have hix : i < x.threads.length := (List.getElem?_eq_some_iff.1 hp).1
  have hgx : ClosedIn G x.mem.heap := fun a c ha hac => hg a c ha (by rw [← ih.common a ha]; exact hac)
  have hbx : ∀ a, G a → a < x.mem.heap.length := fun a ha => Nat.lt_of_lt_of_le (hbg a ha) ih.size
  obtain ⟨F', s1, s2, s3, s4, s5, s6, s7, s8⟩ := keepsG_step (ih.still i p hp) (ih.closed i) hgx (ih.bound i) hbx hst
  have hnew : ∀ a, F' a → (∃ j, j ≠ i ∧ F j a) ∨ G a → False := by
    intro a ha h
    rcases s2 a ha with h1 | rfl
    · rcases h with ⟨j, hj, h⟩ | h
      · exact ih.apart j i a hj h h1
      · exact ih.noCommon i a h1 h
    · rcases h with ⟨j, hj, h⟩ | h
      · exact Nat.lt_irrefl _ (ih.bound j _ h)
      · exact Nat.lt_irrefl _ (hbx _ h)
  refine ⟨i, p, q, m, F', hp, hst, rfl, s1, s2, s6, by simp [ih.len], Nat.le_trans ih.size s8, s7.trans ih.opts, fun j a h => ?_, fun j a h => ?_, fun j k a hjk h1 h2 => ?_,
    fun j a h hg => ?_, fun j a h => ?_, fun j => ?_, fun a ha => (s6 a fun hf => hnew a hf (.inr ha)).trans (ih.common a ha), fun a hl ha => ?_, fun j r hj => ?_⟩
  · split
    · next e => subst e; exact s1 a (ih.grow _ a h)
    · exact ih.grow j a h
  · split at h
    · next e =>
      subst e
      rcases s2 a h with h | rfl
      · exact ih.new _ a h
      · exact .inr ih.size
    · exact ih.new j a h
  · split at h1
    · next e =>
      subst e
      rw [if_neg (Ne.symm hjk)] at h2
      exact hnew a h1 (.inl ⟨k, Ne.symm hjk, h2⟩)
    · next e =>
      split at h2
      · next e2 => exact hnew a h2 (.inl ⟨j, e, h1⟩)
      · exact ih.apart j k a hjk h1 h2
  · split at h
    · exact hnew a h (.inr hg)
    · exact ih.noCommon j a h hg
  · dsimp only at h ⊢
    split at h
    · exact s5 a h
    · exact Nat.lt_of_lt_of_le (ih.bound j a h) s8
  · dsimp only
    split
    · exact s4
    · next e =>
      intro a c ha hac
      rw [s6 a fun hf => hnew a hf (.inl ⟨j, e, ha⟩)] at hac
      exact ih.closed j a c ha hac
  · have hi : i < w.threads.length := by rw [← ih.len]; exact hix
    refine (s6 a fun hf => ?_).trans (ih.outside a hl ha)
    rcases s2 a hf with h | h
    · rcases ih.new i a h with h | h
      · exact ha i hi h
      · omega
    · have := ih.size; omega
  · rcases getElem?_set_cases hj with ⟨rfl, rfl⟩ | ⟨hne, hj⟩
    · rw [if_pos rfl]; exact s3
    · rw [if_neg (Ne.symm hne)]; exact ih.still j r hj

theorem grow_steps {F0 : Nat → Nat → Prop} {G : Nat → Prop} {w x : World α} (hd : ∀ i j a, i ≠ j → F0 i a → ¬ F0 j a) (hdg : ∀ i a, F0 i a → ¬ G a)
    (hb : ∀ i a, F0 i a → a < w.mem.heap.length) (hbg : ∀ a, G a → a < w.mem.heap.length) (hc : ∀ i, ClosedIn (F0 i) w.mem.heap) (hg : ClosedIn G w.mem.heap)
    (hs : ∀ (i : Nat) p, w.threads[i]? = some p → KeepsG G (fun _ _ => True) (F0 i) p) (h : World.Steps w x) : ∃ F, GrowRun F0 G w x F := by
  induction h with
  | refl => exact ⟨F0, rfl, Nat.le_refl _, rfl, fun _ _ h => h, fun _ _ h => .inl h, hd, hdg, hb, hc, fun _ _ => rfl, fun _ _ _ => rfl, hs⟩
  | @snoc x y _ s ih =>
    obtain ⟨F, ih⟩ := ih
    obtain ⟨i, p, q, m, F', -, -, -, -, -, -, h⟩ := grow_step hbg hg ih s
    exact ⟨_, h⟩

theorem grow_no_race {F0 : Nat → Nat → Prop} {G : Nat → Prop} {w x : World α} {F : Nat → Nat → Prop} (h : GrowRun F0 G w x F) : ¬ x.Race := by
  rintro ⟨i, j, p, q, u, v, hij, hp, hq, hu, hv, hl, hb⟩
  rcases keepsG_access (h.still i p hp) hu with ⟨a, ha, hau⟩ | ⟨ho, hu2⟩ <;> rcases keepsG_access (h.still j q hq) hv with ⟨b, hb', hbv⟩ | ⟨ho', hv2⟩
  · have : a = b := by
      rw [hl] at hau
      rcases hau with hau | hau <;> rcases hbv with hbv | hbv <;> rw [hbv] at hau <;> cases hau <;> rfl
    subst this
    exact h.apart i j a hij ha hb'
  · rw [hl] at hau
    rcases ho' with ho' | ⟨b, hgb, ho'⟩ <;> rw [ho'] at hau <;> rcases hau with hau | hau <;> cases hau
    exact h.noCommon i _ ha hgb
  · rw [← hl] at hbv
    rcases ho with ho | ⟨a, hga, ho⟩ <;> rw [ho] at hbv <;> rcases hbv with hbv | hbv <;> cases hbv
    exact h.noCommon j _ hb' hga
  · rw [hu2, hv2] at hb; rcases hb with hb | hb <;> cases hb

/-! ## the calls that make new values -/

theorem keepsG_new {F G : Nat → Prop} {c : Cell} (hc : CellIn F c) : KeepsG G OwnR F (aNew c) :=
  ⟨hc, fun _ _ _ => ownR_ok fun b hb => by cases hb; exact .inr rfl⟩

theorem keepsG_uninit {F G H : Nat → Prop} (hH : Part F G H) {Q : (Nat → Prop) → R α → Prop} {v : Ptr} (hv : Own H v) {k : Bool → Act α}
    (hk : ∀ b, KeepsG G Q F (k b)) : KeepsG G Q F (aUninit v k) := by
  cases v with
  | none => exact hk true
  | some a =>
    refine ⟨H, hH, hv a rfl, fun c _ => ?_⟩
    dsimp only
    split
    · exact hk true
    · exact hk false

theorem keepsG_either {F G : Nat → Prop} {Q : (Nat → Prop) → R α → Prop} {v c : Ptr} (hv : Own F v) (hc : Own F c) {k : Bool → Act α}
    (hk : ∀ b, KeepsG G Q F (k b)) : KeepsG G Q F (aEither v c k) := by
  refine keepsG_uninit (.inl rfl) hv fun b => ?_
  split
  · exact hk true
  · exact keepsG_uninit (.inl rfl) hc hk

theorem keepsG_lift {F G : Nat → Prop} {p : Act Ptr} (h : KeepsTo F G (OwnR F) p) : KeepsG G OwnR F p :=
  keepsG_mono (fun _ _ h => by obtain ⟨rfl, h⟩ := h; exact h) (keepsG_of h)

theorem keepsG_linkKey {F G : Nat → Prop} (E : Env) {a : Nat} (ha : F a) (k : Bytes) {c : Ptr} (hc : Own F c) : KeepsG G OwnR F (aLinkKey E a k c) := by
  refine ⟨F, .inl rfl, ha, fun d hd => ?_⟩
  dsimp only
  split
  · refine ⟨ha, cellIn_obj.2 (hassign_own hc (cellIn_obj.1 (hd _ rfl))), ha, fun l => ?_⟩
    cases l with
    | none => exact ownR_ok hc
    | some l => exact ⟨ha, ownR_ok hc⟩
  · exact ownR_panic

theorem keepsG_push {F G : Nat → Prop} {a : Nat} (ha : F a) {c : Ptr} (hc : Own F c) : KeepsG G OwnR F (aPush a c) := by
  refine ⟨F, .inl rfl, ha, fun d hd => ?_⟩
  dsimp only
  split
  · exact ⟨ha, cellIn_arr.2 (push_own (hd _ rfl) hc), ownR_ok hc⟩
  · exact ownR_panic

theorem newContainer_empty {next : Param} {cell : Cell} (h : hnewContainer next = .ok cell) : pointers cell = [] := by
  unfold hnewContainer at h
  split at h
  · cases h; rfl
  · split at h
    · split at h
      · cases h
      · cases h; rfl
    · cases h

mutual
theorem keepsG_setAt1 {G : Nat → Prop} (E : Env) : ∀ (p : Param) {F : Nat → Prop} {v c : Ptr}, Own F v → Own F c → KeepsG G OwnR F (aSetAt1 E v c p)
  | .slice qs, F, v, c, hv, hc => by
    unfold aSetAt1
    split
    · refine keepsG_either hv hc fun b => ?_
      split
      · exact ownR_err
      · exact keepsG_lift (keepsTo_set E hv hc _)
    · exact keepsG_setAt E qs hv hc
  | .str _, F, v, c, hv, hc | .int _, F, v, c, hv, hc | .uint _, F, v, c, hv, hc | .nil, F, v, c, hv, hc | .other, F, v, c, hv, hc => by
    unfold aSetAt1
    refine keepsG_either hv hc fun b => ?_
    split
    · exact ownR_err
    · exact keepsG_lift (keepsTo_set E hv hc _)
theorem keepsG_setAt {G : Nat → Prop} (E : Env) : ∀ (ps : List Param) {F : Nat → Prop} {v c : Ptr}, Own F v → Own F c → KeepsG G OwnR F (aSetAt E v c ps)
  | [], _, _, _, _, _ => by unfold aSetAt; exact ownR_panic
  | [p], _, _, _, hv, hc => by unfold aSetAt; exact keepsG_setAt1 E p hv hc
  | p :: next :: rest, F, v, c, hv, hc => by
    unfold aSetAt
    dsimp only
    split
    · exact ownR_err
    · refine keepsG_either hv hc fun b => ?_
      split
      · exact ownR_err
      · cases v with
        | none => exact ownR_panic
        | some a =>
          have ha := hv a rfl
          refine ⟨F, .inl rfl, ha, fun d hd => ?_⟩
          cases d with
          | none => exact ownR_panic
          | some d =>
            have hd := hd d rfl
            cases d with
            | obj n kvs low =>
              dsimp only
              split
              · split
                · next he => exact keepsG_setAt E (next :: rest) (cellIn_obj.1 hd _ (hlookup_mem he).1) hc
                · split
                  · next hn =>
                    refine ⟨(fun p hp => by rw [newContainer_empty hn] at hp; cases hp), fun b _ _ => ?_⟩
                    have hb : Own (plus F b) (some b) := fun x hx => by cases hx; exact .inr rfl
                    refine keepsG_onOk (keepsG_setAt E (next :: rest) hb (own_mono (fun _ => .inl) hc)) (fun F' r hs hq => ?_) (fun _ => ownR_other)
                    refine keepsG_onOk (keepsG_linkKey E (hs a (.inl ha)) _ (own_mono hs hb)) (fun F'' _ hs' _ => ?_) (fun _ => ownR_other)
                    exact ownR_ok (own_mono hs' (hq r rfl))
                  · exact ownR_err
                  · exact ownR_panic
              · exact ownR_err
              · exact ownR_panic
            | arr xs =>
              dsimp only
              split
              · split
                · split
                  · next hn =>
                    refine ⟨(fun p hp => by rw [newContainer_empty hn] at hp; cases hp), fun b _ _ => ?_⟩
                    have hb : Own (plus F b) (some b) := fun x hx => by cases hx; exact .inr rfl
                    refine keepsG_onOk (keepsG_setAt E (next :: rest) hb (own_mono (fun _ => .inl) hc)) (fun F' r hs hq => ?_) (fun _ => ownR_other)
                    refine keepsG_onOk (keepsG_push (hs a (.inl ha)) (own_mono hs hb)) (fun F'' _ hs' _ => ?_) (fun _ => ownR_other)
                    exact ownR_ok (own_mono hs' (hq r rfl))
                  · exact ownR_err
                  · exact ownR_panic
                · split
                  · next hx => exact keepsG_setAt E (next :: rest) (hd _ (List.mem_of_getElem? hx)) hc
                  · exact ownR_panic
              · exact ownR_err
              · exact ownR_panic
            | _ => exact ownR_err
end

/-- a list of pointers into the own part -/
def OwnL (F : Nat → Prop) (r : R (List Ptr)) : Prop := ∀ ps, r = .ok ps → ∀ p ∈ ps, Own F p

theorem ownL_other {F : Nat → Prop} (r : R (List Ptr)) (h : ∀ b, r ≠ .ok b) : OwnL F r := fun p hp => absurd hp (h p)

theorem withValues_own {F : Nat → Prop} : ∀ {kvs : List HEnt} {ys : List Ptr}, (∀ p ∈ ys, Own F p) → ∀ e ∈ withValues kvs ys, Own F e.v
  | [], _, _, e, he => by cases he
  | _ :: _, [], _, e, he => by cases he
  | x :: xs, y :: ys, h, e, he => by
    rcases List.mem_cons.1 he with rfl | he
    · exact h y List.mem_cons_self
    · exact withValues_own (fun p hp => h p (List.mem_cons_of_mem _ hp)) e he

/-- the source of a copy: the own part or the common one, in terms of a part that stays as it is -/
theorem keepsG_copyList {G : Nat → Prop} {f : Ptr → Act Ptr} {S : (Nat → Prop) → Ptr → Prop} (hS : ∀ F F' p, (∀ a, F a → F' a) → S F p → S F' p)
    (hf : ∀ F p, S F p → KeepsG G OwnR F (f p)) : ∀ (ps : List Ptr) {F : Nat → Prop}, (∀ p ∈ ps, S F p) → KeepsG G OwnL F (aCopyList f ps)
  | [], _, _ => fun _ h => by cases h; exact fun _ hp => by cases hp
  | x :: xs, F, h => by
    refine keepsG_onOk (hf F x (h x List.mem_cons_self)) (fun F' c hs hq => ?_) (fun _ => ownL_other)
    refine keepsG_onOk (keepsG_copyList hS hf xs fun p hp => hS F F' p hs (h p (List.mem_cons_of_mem _ hp))) (fun F'' cs hs' hq' => ?_) (fun _ => ownL_other)
    intro ps hps p hp
    cases hps
    rcases List.mem_cons.1 hp with rfl | hp
    · exact own_mono hs' (hq _ rfl)
    · exact hq' cs rfl p hp

theorem keepsG_deepCopy {G : Nat → Prop} : ∀ (n : Nat) (F : Nat → Prop) (v : Ptr), (Own F v ∨ Own G v) → KeepsG G OwnR F (aDeepCopy n v)
  | 0, _, _, _ => fun _ h => by cases h
  | _ + 1, _, none, _ => keepsG_new fun _ h => by cases h
  | n + 1, F, some a, hv => by
    have hS : ∀ (F F' : Nat → Prop) (p : Ptr), (∀ a, F a → F' a) → (Own F p ∨ Own G p) → (Own F' p ∨ Own G p) :=
      fun F F' p h => Or.imp_left (own_mono h)
    obtain ⟨H, hH, ha⟩ : ∃ H, Part F G H ∧ H a := by
      rcases hv with hv | hv
      · exact ⟨F, .inl rfl, hv a rfl⟩
      · exact ⟨G, .inr rfl, hv a rfl⟩
    have hHS : ∀ p, Own H p → Own F p ∨ Own G p := by
      rcases hH with rfl | rfl
      · exact fun _ => .inl
      · exact fun _ => .inr
    refine ⟨H, hH, ha, fun c hc => ?_⟩
    cases c with
    | none => exact ownR_panic
    | some c =>
      have hc := hc c rfl
      cases c with
      | arr xs =>
        exact keepsG_onOk (keepsG_copyList hS (keepsG_deepCopy n) xs fun p hp => hHS p (hc p hp)) (fun F' ys _ hq => keepsG_new (cellIn_arr.2 (hq ys rfl))) (fun _ => ownR_other)
      | obj i kvs low =>
        exact keepsG_onOk (keepsG_copyList hS (keepsG_deepCopy n) _ fun p hp => hHS p (hc p hp)) (fun F' ys _ hq => keepsG_new (cellIn_obj.2 (withValues_own (hq ys rfl)))) (fun _ => ownR_other)
      | _ => exact keepsG_new fun _ h => by cases h

/-! ## they are the functions of the heap model -/

theorem node_uninit (m : Mem) (a : Nat) : m.heap.uninit (some a) = match m.node a with | some .notExist => true | _ => false := by
  unfold Heap.uninit Mem.node
  cases h : m.heap[a]? with
  | none => simp only [h, Option.map_none]
  | some c => cases c <;> simp only [h, Option.map_some, Cell.plain]

theorem run_uninit (v : Ptr) (k : Bool → Act α) (m : Mem) : (aUninit v k).run m = (k (m.heap.uninit v)).run m := by
  cases v with
  | none => rfl
  | some a =>
    rw [node_uninit]
    simp only [aUninit, Act.run]
    cases m.node a with
    | none => rfl
    | some c => cases c <;> rfl

theorem run_either (v c : Ptr) (k : Bool → Act α) (m : Mem) : (aEither v c k).run m = (k (m.heap.uninit v || m.heap.uninit c)).run m := by
  unfold aEither
  rw [run_uninit]
  cases m.heap.uninit v with
  | true => rfl
  | false => simp only [Bool.false_eq_true, if_false, Bool.false_or]; rw [run_uninit]

theorem run_then {p : Act Ptr} {f : Ptr → Act Ptr} {m : Mem} {r : Heap × R Ptr} {g : Heap → Ptr → Heap × R Ptr} (h : p.run m = m.gives r)
    (hf : ∀ h c, (f c).run { m with heap := h } = m.gives (g h c)) : (p.onOk f).run m = m.gives (hthen r g) := by
  unfold Act.onOk
  rw [run_andThen, h]
  obtain ⟨h', r⟩ := r
  cases r with
  | ok c => exact hf h' c
  | _ => rfl

theorem run_linkKey (E : Env) (a : Nat) (k : Bytes) (c : Ptr) (m : Mem) : (aLinkKey E a k c).run m = m.gives (hsetKey E m.heap a k c) := by
  simp only [aLinkKey, Act.run, Mem.node]
  cases hc : m.heap[a]? with
  | none => simp only [hsetKey, hc]; rfl
  | some d =>
    cases d with
    | obj n kvs low => exact run_setKey E k c m hc
    | _ => simp only [hsetKey, hc]; rfl

theorem run_push (a : Nat) (c : Ptr) (m : Mem) : (aPush a c).run m = m.gives (hpush m.heap a c) := by
  simp only [aPush, Act.run, Mem.node]
  cases hc : m.heap[a]? with
  | none => simp only [hpush, hc]; rfl
  | some d => cases d <;> simp only [hpush, hc] <;> rfl

mutual
theorem run_setAt1 (E : Env) : ∀ (p : Param) (v c : Ptr) (m : Mem), (aSetAt1 E v c p).run m = m.gives (hsetAt1 E m.heap v c p)
  | .slice qs, v, c, m => by
    unfold aSetAt1 hsetAt1
    by_cases hq : qs.isEmpty = true
    · rw [if_pos hq, if_pos hq, run_either]
      split
      · rfl
      · exact run_setLast E v c _ m
    · rw [if_neg hq, if_neg hq]
      exact run_setAt E qs v c m
  | .str _, v, c, m | .int _, v, c, m | .uint _, v, c, m | .nil, v, c, m | .other, v, c, m => by
    unfold aSetAt1 hsetAt1
    rw [run_either]
    split
    · rfl
    · exact run_setLast E v c _ m
theorem run_setAt (E : Env) : ∀ (ps : List Param) (v c : Ptr) (m : Mem), (aSetAt E v c ps).run m = m.gives (hsetAt E m.heap v c ps)
  | [], _, _, _ => by unfold aSetAt hsetAt; rfl
  | [p], v, c, m => by unfold aSetAt hsetAt; exact run_setAt1 E p v c m
  | p :: next :: rest, v, c, m => by
    unfold aSetAt hsetAt
    dsimp only
    by_cases hp : p.isSlice = true
    · rw [if_pos hp, if_pos hp]; rfl
    · rw [if_neg hp, if_neg hp, run_either]
      by_cases hu : (m.heap.uninit v || m.heap.uninit c) = true
      · rw [if_pos hu, if_pos hu]; rfl
      · rw [if_neg hu, if_neg hu]
        cases v with
        | none => rfl
        | some a =>
          simp only [Act.run, Mem.node]
          cases hc : m.heap[a]? with
          | none => rfl
          | some d =>
            cases d with
            | obj n kvs low =>
              simp only [Option.map_some, Cell.plain]
              cases anyToString p with
              | ok k =>
                dsimp only
                cases hlookup k kvs with
                | some e => exact run_setAt E (next :: rest) e.v c m
                | none =>
                  dsimp only
                  cases hnewContainer next with
                  | ok cell =>
                    simp only [Act.run]
                    exact run_then (m := { m with heap := m.heap ++ [cell] }) (run_setAt E (next :: rest) _ c _) fun h r =>
                      run_then (m := { m with heap := h }) (run_linkKey E a k _ _) fun _ _ => rfl
                  | _ => rfl
              | _ => rfl
            | arr xs =>
              simp only [Option.map_some, Cell.plain]
              cases anyToInt p with
              | ok pos =>
                dsimp only
                by_cases hi : posForRead xs.length pos < 0
                · rw [if_pos hi, if_pos hi]
                  cases hnewContainer next with
                  | ok cell =>
                    simp only [Act.run]
                    exact run_then (m := { m with heap := m.heap ++ [cell] }) (run_setAt E (next :: rest) _ c _) fun h r =>
                      run_then (m := { m with heap := h }) (run_push a _ _) fun _ _ => rfl
                  | _ => rfl
                · rw [if_neg hi, if_neg hi]
                  cases xs[(posForRead xs.length pos).toNat]? with
                  | some child => exact run_setAt E (next :: rest) child c m
                  | none => rfl
              | _ => rfl
            | _ => rfl
end

theorem run_copyList {f : Ptr → Act Ptr} {g : Heap → Ptr → Heap × R Ptr} (h : ∀ p (m : Mem), (f p).run m = m.gives (g m.heap p)) :
    ∀ (ps : List Ptr) (m : Mem), (aCopyList f ps).run m = m.gives (hcopyList g m.heap ps)
  | [], _ => rfl
  | x :: xs, m => by
    simp only [aCopyList, Act.onOk, hcopyList]
    rw [run_andThen, h]
    obtain ⟨h1, r⟩ : Heap × R Ptr := g m.heap x
    cases r with
    | ok c =>
      simp only [Mem.gives]
      rw [run_andThen, run_copyList h xs]
      simp only [Mem.gives]
      obtain ⟨h2, r2⟩ : Heap × R (List Ptr) := hcopyList g h1 xs
      cases r2 <;> rfl
    | _ => rfl

theorem run_deepCopy : ∀ (n : Nat) (v : Ptr) (m : Mem), (aDeepCopy n v).run m = m.gives (hdeepCopy n m.heap v)
  | 0, _, _ => rfl
  | n + 1, none, m => rfl
  | n + 1, some a, m => by
    simp only [aDeepCopy, Act.run, hdeepCopy, Mem.node]
    cases hc : m.heap[a]? with
    | none => rfl
    | some d =>
      cases d with
      | arr xs =>
        simp only [Option.map_some, Cell.plain, Act.onOk]
        rw [run_andThen, run_copyList (run_deepCopy n)]
        obtain ⟨h2, r2⟩ : Heap × R (List Ptr) := hcopyList (hdeepCopy n) m.heap xs
        cases r2 <;> rfl
      | obj i kvs low =>
        simp only [Option.map_some, Cell.plain, Act.onOk]
        rw [run_andThen, run_copyList (run_deepCopy n)]
        obtain ⟨h2, r2⟩ : Heap × R (List Ptr) := hcopyList (hdeepCopy n) m.heap (kvs.map HEnt.v)
        cases r2 <;> rfl
      | _ => rfl

end JV
