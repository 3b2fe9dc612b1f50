import Verif.Spec.ThreadsWrite
import Verif.Proofs.Threads
/-! Code that stays in one part of the memory. -/
namespace JV
open Spec

variable {α β : Type}

def CellIn (F : Nat → Prop) (c : Cell) : Prop := ∀ p ∈ pointers c, Own F p

/-- a part of the memory that may be read: the own one, or the one that is common to all -/
def Part (F G H : Nat → Prop) : Prop := H = F ∨ H = G

/-- reads and writes `F`, reads `G` without the lower case indexes; stores only pointers into `F`, allocates nothing, sets no options; `Q` holds of
the result -/
def KeepsTo (F G : Nat → Prop) (Q : R α → Prop) : Act α → Prop
  | .ret r => Q r
  | .read a k => ∃ H, Part F G H ∧ H a ∧ ∀ c, (∀ x, c = some x → CellIn H x) → KeepsTo F G Q (k c)
  | .readIndex a k => F a ∧ ∀ l, KeepsTo F G Q (k l)
  | .readOptions k => ∀ o, KeepsTo F G Q (k o)
  | .write a c k => F a ∧ CellIn F c ∧ KeepsTo F G Q k
  | .writeIndex a _ k => F a ∧ KeepsTo F G Q k
  | .writeOptions _ _ => False
  | .alloc _ _ => False

def ClosedIn (F : Nat → Prop) (h : Heap) : Prop := ∀ a c, F a → h[a]? = some c → CellIn F c

structure AgreeOn (F : Nat → Prop) (m n : Mem) : Prop where
  cells : ∀ a, F a → m.heap[a]? = n.heap[a]?
  opts : m.options = n.options

theorem pointers_plain (c : Cell) : pointers c.plain = pointers c := by cases c <;> rfl
theorem pointers_withIndex (l : Low) (c : Cell) : pointers (c.withIndex l) = pointers c := by cases c <;> rfl

theorem cellIn_plain {F : Nat → Prop} {c : Cell} : CellIn F c.plain ↔ CellIn F c := by unfold CellIn; rw [pointers_plain]
theorem cellIn_withIndex {F : Nat → Prop} {l : Low} {c : Cell} : CellIn F (c.withIndex l) ↔ CellIn F c := by unfold CellIn; rw [pointers_withIndex]

theorem setNode_get {m : Mem} {a b : Nat} {c : Cell} (h : a ≠ b) : (m.setNode a c).heap[b]? = m.heap[b]? := by
  simp only [Mem.setNode, List.getElem?_set_ne h]

theorem setIndex_get {m : Mem} {a b : Nat} {l : Low} (h : a ≠ b) : (m.setIndex a l).heap[b]? = m.heap[b]? := by
  unfold Mem.setIndex
  split
  · simp only [List.getElem?_set_ne h]
  · rfl

theorem setNode_self {m : Mem} {a : Nat} {c : Cell} : (m.setNode a c).heap[a]? = (m.heap[a]?).map fun _ => c.withIndex (m.index a) := by
  simp only [Mem.setNode]
  rw [List.getElem?_set]
  by_cases h : a < m.heap.length
  · simp [h]
  · simp [h]

theorem setIndex_self {m : Mem} {a : Nat} {l : Low} : (m.setIndex a l).heap[a]? = (m.heap[a]?).map (Cell.withIndex l) := by
  unfold Mem.setIndex
  cases h : m.heap[a]? with
  | none => simp [h]
  | some c => simp [(List.getElem?_eq_some_iff.1 h).1]

theorem setIndex_options {m : Mem} {a : Nat} {l : Low} : (m.setIndex a l).options = m.options := by
  unfold Mem.setIndex
  split <;> rfl

theorem setIndex_length {m : Mem} {a : Nat} {l : Low} : (m.setIndex a l).heap.length = m.heap.length := by
  unfold Mem.setIndex
  split <;> simp

/-- one step keeps to `F` -/
theorem keepsTo_step {F G : Nat → Prop} {Q : R α → Prop} {m m' : Mem} {p q : Act α} (hp : KeepsTo F G Q p) (hc : ClosedIn F m.heap) (hg : ClosedIn G m.heap) (h : p.step m = some (m', q)) :
    KeepsTo F G Q q ∧ ClosedIn F m'.heap ∧ (∀ a, ¬ F a → m'.heap[a]? = m.heap[a]?) ∧ m'.options = m.options ∧ m'.heap.length = m.heap.length := by
  cases p with
  | ret r => cases h
  | read a k =>
    cases h
    obtain ⟨H, hH, hHa, hk⟩ := hp
    refine ⟨hk _ fun x hx => ?_, hc, fun _ _ => rfl, rfl, rfl⟩
    have hc : ClosedIn H m.heap := by rcases hH with rfl | rfl <;> assumption
    unfold Mem.node at hx
    cases hh : m.heap[a]? with
    | none => rw [hh] at hx; cases hx
    | some c => rw [hh] at hx; cases hx; exact cellIn_plain.2 (hc a c hHa hh)
  | readIndex a k => cases h; exact ⟨hp.2 _, hc, fun _ _ => rfl, rfl, rfl⟩
  | readOptions k => cases h; exact ⟨hp _, hc, fun _ _ => rfl, rfl, rfl⟩
  | write a c k =>
    cases h
    refine ⟨hp.2.2, fun b d hb hd => ?_, fun b hb => setNode_get fun e => hb (e ▸ hp.1), rfl, by simp [Mem.setNode]⟩
    by_cases hab : a = b
    · subst hab
      rw [setNode_self] at hd
      cases hh : m.heap[a]? with
      | none => rw [hh] at hd; cases hd
      | some e => rw [hh] at hd; cases hd; exact cellIn_withIndex.2 hp.2.1
    · rw [setNode_get hab] at hd; exact hc b d hb hd
  | writeIndex a l k =>
    cases h
    refine ⟨hp.2, fun b d hb hd => ?_, fun b hb => setIndex_get fun e => hb (e ▸ hp.1), setIndex_options, setIndex_length⟩
    by_cases hab : a = b
    · subst hab
      rw [setIndex_self] at hd
      cases hh : m.heap[a]? with
      | none => rw [hh] at hd; cases hd
      | some e => rw [hh] at hd; cases hd; exact cellIn_withIndex.2 (hc a e hb hh)
    · rw [setIndex_get hab] at hd; exact hc b d hb hd
  | writeOptions o k => exact hp.elim
  | alloc c k => exact hp.elim

/-- and does the same in every memory that looks the same there -/
theorem keepsTo_agree {F G : Nat → Prop} {Q : R α → Prop} {m n m' : Mem} {p q : Act α} (hp : KeepsTo F G Q p) (ha : AgreeOn (fun a => F a ∨ G a) n m) (h : p.step m = some (m', q)) :
    ∃ n', p.step n = some (n', q) ∧ AgreeOn (fun a => F a ∨ G a) n' m' := by
  have hi : ∀ a, (F a ∨ G a) → n.index a = m.index a := fun a h => by unfold Mem.index; rw [ha.cells a h]
  have hn : ∀ a, (F a ∨ G a) → n.node a = m.node a := fun a h => by unfold Mem.node; rw [ha.cells a h]
  cases p with
  | ret r => cases h
  | read a k =>
    cases h
    obtain ⟨H, hH, hHa, -⟩ := hp
    exact ⟨n, by simp only [Act.step, hn a (hH.elim (fun e => .inl (e ▸ hHa)) fun e => .inr (e ▸ hHa))], ha⟩
  | readIndex a k => cases h; exact ⟨n, by simp only [Act.step, hi a (.inl hp.1)], ha⟩
  | readOptions k => cases h; exact ⟨n, by simp only [Act.step, ha.opts], ha⟩
  | write a c k =>
    cases h
    refine ⟨_, rfl, fun b hb => ?_, ha.opts⟩
    by_cases hab : a = b
    · subst hab; rw [setNode_self, setNode_self, hi a hb, ha.cells a hb]
    · rw [setNode_get hab, setNode_get hab, ha.cells b hb]
  | writeIndex a l k =>
    cases h
    refine ⟨_, rfl, fun b hb => ?_, by rw [setIndex_options, setIndex_options, ha.opts]⟩
    by_cases hab : a = b
    · subst hab; rw [setIndex_self, setIndex_self, ha.cells a hb]
    · rw [setIndex_get hab, setIndex_get hab, ha.cells b hb]
  | writeOptions o k => exact hp.elim
  | alloc c k => exact hp.elim

theorem keepsTo_access {F G : Nat → Prop} {Q : R α → Prop} {p : Act α} (hp : KeepsTo F G Q p) {x : Loc × Bool} (h : p.access = some x) :
    (∃ a, F a ∧ (x.1 = .node a ∨ x.1 = .index a)) ∨ ((x.1 = .options ∨ ∃ a, G a ∧ x.1 = .node a) ∧ x.2 = false) := by
  cases p <;> cases h
  · obtain ⟨H, hH, hHa, -⟩ := hp
    rcases hH with rfl | rfl
    · exact .inl ⟨_, hHa, .inl rfl⟩
    · exact .inr ⟨.inr ⟨_, hHa, rfl⟩, rfl⟩
  · exact .inl ⟨_, hp.1, .inr rfl⟩
  · exact .inr ⟨.inl rfl, rfl⟩
  · exact .inl ⟨_, hp.1, .inl rfl⟩
  · exact .inl ⟨_, hp.1, .inr rfl⟩
  · exact hp.elim

/-! ## goroutines in separate parts -/

structure ApartRun (F : Nat → Nat → Prop) (G : Nat → Prop) (w x : World α) : Prop where
  len : x.threads.length = w.threads.length
  size : x.mem.heap.length = w.mem.heap.length
  opts : x.mem.options = w.mem.options
  closed : ∀ i, ClosedIn (F i) x.mem.heap
  common : ∀ a, G a → x.mem.heap[a]? = w.mem.heap[a]?
  outside : ∀ a, (∀ i, i < w.threads.length → ¬ F i a) → x.mem.heap[a]? = w.mem.heap[a]?
  alone : ∀ (i : Nat) p, w.threads[i]? = some p → ∃ q m, x.threads[i]? = some q ∧ KeepsTo (F i) G (fun _ => True) q ∧
    AgreeOn (fun a => F i a ∨ G a) m x.mem ∧ q.run m = p.run w.mem

theorem apart_steps {F : Nat → Nat → Prop} {G : Nat → Prop} {w x : World α} (hd : ∀ i j a, i ≠ j → F i a → ¬ F j a) (hdg : ∀ i a, F i a → ¬ G a)
    (hc : ∀ i, ClosedIn (F i) w.mem.heap) (hg : ClosedIn G w.mem.heap)
    (hs : ∀ (i : Nat) p, w.threads[i]? = some p → KeepsTo (F i) G (fun _ => True) p) (h : World.Steps w x) : ApartRun F G w x := by
  induction h with
  | refl => exact ⟨rfl, rfl, rfl, hc, fun _ _ => rfl, fun _ _ => rfl, fun i p hp => ⟨p, w.mem, hp, hs i p hp, ⟨fun _ _ => rfl, rfl⟩, rfl⟩⟩
  | @snoc x y _ s ih =>
    obtain ⟨i, p, q, m, hp, hst⟩ := s
    have hix : i < x.threads.length := (List.getElem?_eq_some_iff.1 hp).1
    have hi : i < w.threads.length := by rw [← ih.len]; exact hix
    obtain ⟨q0, n, hq0, hsq, hag, hrun⟩ := ih.alone i _ (List.getElem?_eq_getElem hi)
    rw [hp] at hq0
    cases hq0
    have hgx : ClosedIn G x.mem.heap := fun a c ha hac => hg a c ha (by rw [← ih.common a ha]; exact hac)
    obtain ⟨s1, s2, s3, s4, s5⟩ := keepsTo_step hsq (ih.closed i) hgx hst
    obtain ⟨n', hn, hag'⟩ := keepsTo_agree hsq hag hst
    refine ⟨by simp [ih.len], s5.trans ih.size, s4.trans ih.opts, fun j => ?_, fun a ha => (s3 a fun hf => hdg i a hf ha).trans (ih.common a ha),
      fun a ha => (s3 a (ha i hi)).trans (ih.outside a ha), fun j pj hj => ?_⟩
    · by_cases hij : i = j
      · subst hij; exact s2
      · intro a c ha hac
        dsimp only at hac
        rw [s3 a (hd j i a (Ne.symm hij) ha)] at hac
        exact ih.closed j a c ha hac
    · by_cases hij : i = j
      · subst hij
        rw [List.getElem?_eq_getElem hi] at hj
        cases hj
        exact ⟨q, n', by simp [hix], s1, hag', by rw [run_step hn]; exact hrun⟩
      · obtain ⟨q1, n1, a1, a2, a3, a4⟩ := ih.alone j pj hj
        refine ⟨q1, n1, by simp only [List.getElem?_set_ne hij]; exact a1, a2, ⟨fun a ha => ?_, a3.opts.trans s4.symm⟩, a4⟩
        dsimp only
        rw [s3 a (ha.elim (hd j i a (Ne.symm hij)) fun h hf => hdg i a hf h)]
        exact a3.cells a ha

theorem apart_no_race {F : Nat → Nat → Prop} {G : Nat → Prop} {w x : World α} (hd : ∀ i j a, i ≠ j → F i a → ¬ F j a) (hdg : ∀ i a, F i a → ¬ G a)
    (h : ApartRun F G w x) : ¬ x.Race := by
  rintro ⟨i, j, p, q, u, v, hij, hp, hq, hu, hv, hl, hb⟩
  have hst : ∀ (k : Nat) r, x.threads[k]? = some r → KeepsTo (F k) G (fun _ => True) r := by
    intro k r hk
    have hk' : k < w.threads.length := by rw [← h.len]; exact (List.getElem?_eq_some_iff.1 hk).1
    obtain ⟨q1, _, h1, h2, _⟩ := h.alone k _ (List.getElem?_eq_getElem hk')
    rw [hk] at h1
    cases h1
    exact h2
  rcases keepsTo_access (hst i p hp) hu with ⟨a, ha, hau⟩ | ⟨ho, hu2⟩ <;> rcases keepsTo_access (hst j q hq) hv with ⟨b, hb', hbv⟩ | ⟨ho', hv2⟩
  · have : a = b := by
      rw [hl] at hau
      rcases hau with hau | hau <;> rcases hbv with hbv | hbv <;> rw [hbv] at hau <;> cases hau <;> rfl
    subst this
    exact hd i j a hij ha hb'
  · rw [hl] at hau
    rcases ho' with ho' | ⟨b, hgb, ho'⟩ <;> rw [ho'] at hau <;> rcases hau with hau | hau <;> cases hau
    exact hdg i _ ha hgb
  · rw [← hl] at hbv
    rcases ho with ho | ⟨a, hga, ho⟩ <;> rw [ho] at hbv <;> rcases hbv with hbv | hbv <;> cases hbv
    exact hdg j _ hb' hga
  · rw [hu2, hv2] at hb; rcases hb with hb | hb <;> cases hb

/-! ## the calls stay where they are -/

theorem keepsTo_andThen {F G : Nat → Prop} {Q : R α → Prop} {Q' : R β → Prop} {f : R α → Act β} (hf : ∀ r, Q r → KeepsTo F G Q' (f r)) :
    ∀ {p : Act α}, KeepsTo F G Q p → KeepsTo F G Q' (p.andThen f)
  | .ret r, h => hf r h
  | .read _ _, ⟨H, h1, h2, h3⟩ => ⟨H, h1, h2, fun c hc => keepsTo_andThen hf (h3 c hc)⟩
  | .readIndex _ _, h => ⟨h.1, fun l => keepsTo_andThen hf (h.2 l)⟩
  | .readOptions _, h => fun o => keepsTo_andThen hf (h o)
  | .write _ _ _, h => ⟨h.1, h.2.1, keepsTo_andThen hf h.2.2⟩
  | .writeIndex _ _ _, h => ⟨h.1, keepsTo_andThen hf h.2⟩
  | .writeOptions _ _, h => h.elim
  | .alloc _ _, h => h.elim

theorem keepsTo_mono {F G : Nat → Prop} {Q Q' : R α → Prop} (hq : ∀ r, Q r → Q' r) : ∀ {p : Act α}, KeepsTo F G Q p → KeepsTo F G Q' p
  | .ret r, h => hq r h
  | .read _ _, ⟨H, h1, h2, h3⟩ => ⟨H, h1, h2, fun c hc => keepsTo_mono hq (h3 c hc)⟩
  | .readIndex _ _, h => ⟨h.1, fun l => keepsTo_mono hq (h.2 l)⟩
  | .readOptions _, h => fun o => keepsTo_mono hq (h o)
  | .write _ _ _, h => ⟨h.1, h.2.1, keepsTo_mono hq h.2.2⟩
  | .writeIndex _ _ _, h => ⟨h.1, keepsTo_mono hq h.2⟩
  | .writeOptions _ _, h => h.elim
  | .alloc _ _, h => h.elim

theorem keepsTo_onOk {F G : Nat → Prop} {Q : R α → Prop} {Q' : R β → Prop} {p : Act α} {f : α → Act β} (hp : KeepsTo F G Q p)
    (hf : ∀ a, Q (.ok a) → KeepsTo F G Q' (f a)) (hr : ∀ r, (∀ b, r ≠ .ok b) → Q' r) : KeepsTo F G Q' (p.onOk f) := by
  refine keepsTo_andThen (fun r hq => ?_) hp
  cases r with
  | ok a => exact hf a hq
  | err e => exact hr _ fun _ => by simp
  | panic => exact hr _ fun _ => by simp
  | diverge => exact hr _ fun _ => by simp

theorem ownR_other {F : Nat → Prop} (r : R Ptr) (h : ∀ b, r ≠ .ok b) : OwnR F r := fun p hp => absurd hp (h p)

theorem ownR_ok {F : Nat → Prop} {p : Ptr} (h : Own F p) : OwnR F (.ok p) := fun q hq => by cases hq; exact h
theorem ownR_err {F : Nat → Prop} {e : Err} : OwnR F (.err e) := fun _ h => by cases h
theorem ownR_panic {F : Nat → Prop} : OwnR F .panic := fun _ h => by cases h
theorem own_none {F : Nat → Prop} : Own F none := fun _ h => by cases h

theorem keepsTo_fill {F G : Nat → Prop} {Q : R α → Prop} (E : Env) {a : Nat} (ha : F a) {k : Act α} (hk : KeepsTo F G Q k) : ∀ es, KeepsTo F G Q (aFillIndex E a es k)
  | [] => hk
  | _ :: es => ⟨ha, fun _ => ⟨ha, keepsTo_fill E ha hk es⟩⟩

theorem keepsTo_init {F G : Nat → Prop} {Q : R α → Prop} (E : Env) {a : Nat} (ha : F a) {k : Act α} (hk : KeepsTo F G Q k) (kvs : List HEnt) :
    KeepsTo F G Q (aInitCaseless E a kvs k) := by
  refine ⟨ha, fun l => ?_⟩
  cases l with
  | none => exact ⟨ha, keepsTo_fill E ha hk kvs⟩
  | some l => exact hk

theorem cellIn_arr {F : Nat → Prop} {xs : List Ptr} : CellIn F (.arr xs) ↔ ∀ p ∈ xs, Own F p := Iff.rfl
theorem cellIn_obj {F : Nat → Prop} {n : BitVec 32} {kvs : List HEnt} {l : Low} : CellIn F (.obj n kvs l) ↔ ∀ e ∈ kvs, Own F e.v := by
  unfold CellIn pointers
  simp

theorem keepsTo_find {F G H : Nat → Prop} (E : Env) (cl : Bool) {a : Nat} (ha : cl = true → F a) {kvs : List HEnt} (hk : ∀ e ∈ kvs, Own H e.v) (key : Bytes) :
    KeepsTo F G (OwnR H) (aFind E cl a kvs key) := by
  unfold aFind
  split
  · next e he => exact ownR_ok (hk e (hlookup_mem he).1)
  · split
    · exact ownR_err
    · next hcl =>
      have ha := ha (by simpa using hcl)
      refine keepsTo_init E ha (k := .readIndex a _) ⟨ha, fun l => ?_⟩ kvs
      split
      · exact ownR_err
      · split
        · exact ownR_err
        · split
          · next e he => exact ownR_ok (hk e (hlookup_mem he).1)
          · exact ownR_panic

theorem keepsTo_locate {F G H : Nat → Prop} (hH : Part F G H) (E : Env) (cl : Bool) (hcl : cl = true → H = F) {v : Ptr} (hv : Own H v) (p : Param) : KeepsTo F G (OwnR H) (aLocate E cl v p) := by
  cases v with
  | none => exact ownR_panic
  | some a =>
    refine ⟨H, hH, hv a rfl, fun c hc => ?_⟩
    cases c with
    | none => exact ownR_panic
    | some c =>
      have hc := hc c rfl
      cases c with
      | arr xs =>
        dsimp only
        split
        · split
          · exact ownR_err
          · split
            · next h => exact ownR_ok (hc _ (List.mem_of_getElem? h))
            · exact ownR_panic
        · exact ownR_err
        · exact ownR_panic
      | obj n kvs low =>
        dsimp only
        split
        · exact keepsTo_find E cl (fun h => hcl h ▸ hv a rfl) (cellIn_obj.1 hc) _
        · exact ownR_err
        · exact ownR_panic
      | _ => exact ownR_err

mutual
theorem keepsTo_get1 {F G H : Nat → Prop} (hH : Part F G H) (E : Env) (cl : Bool) (hcl : cl = true → H = F) {v : Ptr} (hv : Own H v) : ∀ p, KeepsTo F G (OwnR H) (aGet1 E cl v p)
  | .slice qs => by
    unfold aGet1
    split
    · exact keepsTo_locate hH E cl hcl hv _
    · exact keepsTo_get hH E cl hcl hv qs
  | .str _ | .int _ | .uint _ | .nil | .other => by unfold aGet1; exact keepsTo_locate hH E cl hcl hv _
theorem keepsTo_get {F G H : Nat → Prop} (hH : Part F G H) (E : Env) (cl : Bool) (hcl : cl = true → H = F) {v : Ptr} (hv : Own H v) : ∀ ps, KeepsTo F G (OwnR H) (aGet E cl v ps)
  | [] => by unfold aGet; exact ownR_panic
  | p :: rest => by
    unfold aGet
    split
    · exact keepsTo_get1 hH E cl hcl hv p
    · split
      · exact ownR_err
      · exact keepsTo_onOk (keepsTo_locate hH E cl hcl hv p) (fun c hc => keepsTo_get hH E cl hcl (hc c rfl) rest) ownR_other
end

theorem keepsTo_look {F G H : Nat → Prop} (hH : Part F G H) {v : Ptr} (hv : Own H v) (f : Cell → R α) : KeepsTo F G (fun r => ∀ b, r = .ok b → ∃ c, CellIn H c ∧ f c = .ok b) (aLook v f) := by
  cases v with
  | none => exact fun _ h => by cases h
  | some a =>
    refine ⟨H, hH, hv a rfl, fun c hc => ?_⟩
    cases c with
    | none => exact fun _ h => by cases h
    | some c => exact fun b hb => ⟨c, hc c rfl, hb⟩

abbrev Any (_ : R α) : Prop := True

theorem keepsTo_readList {F G H : Nat → Prop} {f : Ptr → Act V} (hf : ∀ p, Own H p → KeepsTo F G Any (f p)) :
    ∀ ps, (∀ p ∈ ps, Own H p) → KeepsTo F G Any (aReadList f ps)
  | [], _ => trivial
  | x :: xs, h => keepsTo_onOk (hf x (h x List.mem_cons_self))
      (fun _ _ => keepsTo_onOk (keepsTo_readList hf xs fun p hp => h p (List.mem_cons_of_mem _ hp)) (fun _ _ => trivial) fun _ _ => trivial) fun _ _ => trivial

theorem keepsTo_read {F G H : Nat → Prop} (hH : Part F G H) : ∀ (n : Nat) (v : Ptr), Own H v → KeepsTo F G Any (aRead n v)
  | 0, _, _ => trivial
  | _ + 1, none, _ => trivial
  | n + 1, some a, hv => by
    refine ⟨H, hH, hv a rfl, fun c hc => ?_⟩
    cases c with
    | none => exact trivial
    | some c =>
      have hc := hc c rfl
      cases c with
      | arr xs => exact keepsTo_onOk (keepsTo_readList (keepsTo_read hH n) xs hc) (fun _ _ => trivial) fun _ _ => trivial
      | obj i kvs low => exact keepsTo_onOk (keepsTo_readList (keepsTo_read hH n) _ hc) (fun _ _ => trivial) fun _ _ => trivial
      | _ => exact trivial

theorem keepsTo_each {F G H : Nat → Prop} {f : α → Ptr → Act Bool} (hf : ∀ k c, Own H c → KeepsTo F G Any (f k c)) :
    ∀ l : List (α × Ptr), (∀ x ∈ l, Own H x.2) → KeepsTo F G Any (aEach f l)
  | [], _ => trivial
  | (k, c) :: l, h => keepsTo_onOk (hf k c (h _ List.mem_cons_self)) (fun go _ => by
      split
      · exact keepsTo_each hf l fun x hx => h x (List.mem_cons_of_mem _ hx)
      · exact trivial) fun _ _ => trivial

theorem keepsTo_rangeArray {F G H : Nat → Prop} (hH : Part F G H) {v : Ptr} (hv : Own H v) {f : Nat → Ptr → Act Bool} (hf : ∀ k c, Own H c → KeepsTo F G Any (f k c)) :
    KeepsTo F G Any (aRangeArray v f) := by
  refine keepsTo_onOk (keepsTo_look hH hv .ok) (fun c hc => ?_) fun _ _ => trivial
  obtain ⟨d, hd, he⟩ := hc c rfl
  cases he
  cases c with
  | arr xs => exact keepsTo_each hf _ fun x hx => hd _ (List.of_mem_zip hx).2
  | _ => exact trivial

theorem keepsTo_rangeObjects {F G H : Nat → Prop} (hH : Part F G H) {v : Ptr} (hv : Own H v) {order : List HEnt → List HEnt} (ho : ∀ l, (order l).Perm l)
    {f : Bytes → Ptr → Act Bool} (hf : ∀ k c, Own H c → KeepsTo F G Any (f k c)) : KeepsTo F G Any (aRangeObjects order v f) := by
  refine keepsTo_onOk (keepsTo_look hH hv .ok) (fun c hc => ?_) fun _ _ => trivial
  obtain ⟨d, hd, he⟩ := hc c rfl
  cases he
  cases c with
  | obj n kvs low =>
    refine keepsTo_each hf _ fun x hx => ?_
    obtain ⟨e, he, rfl⟩ := List.mem_map.1 hx
    exact cellIn_obj.1 hd e ((ho kvs).mem_iff.1 he)
  | _ => exact trivial

/-! ### and those that change -/

theorem hassign_own {F : Nat → Prop} {e : HEnt} (he : Own F e.v) : ∀ {kvs : List HEnt}, (∀ x ∈ kvs, Own F x.v) → ∀ x ∈ hassign e kvs, Own F x.v
  | [], _, x, hx => by cases List.mem_singleton.1 hx; exact he
  | y :: ys, h, x, hx => by
    unfold hassign at hx
    split at hx
    · rcases List.mem_cons.1 hx with rfl | hx
      · exact he
      · exact h x (List.mem_cons_of_mem _ hx)
    · rcases List.mem_cons.1 hx with rfl | hx
      · exact h _ List.mem_cons_self
      · exact hassign_own he (fun z hz => h z (List.mem_cons_of_mem _ hz)) x hx

theorem herase_own {F : Nat → Prop} {k : Bytes} : ∀ {kvs : List HEnt}, (∀ x ∈ kvs, Own F x.v) → ∀ x ∈ herase k kvs, Own F x.v
  | [], _, x, hx => by cases hx
  | y :: ys, h, x, hx => by
    unfold herase at hx
    split at hx
    · exact h x (List.mem_cons_of_mem _ hx)
    · rcases List.mem_cons.1 hx with rfl | hx
      · exact h _ List.mem_cons_self
      · exact herase_own (fun z hz => h z (List.mem_cons_of_mem _ hz)) x hx

theorem copyAt_own {F : Nat → Prop} {xs ys : List Ptr} {n : Nat} (hx : ∀ p ∈ xs, Own F p) (hy : ∀ p ∈ ys, Own F p) : ∀ p ∈ copyAt xs n ys, Own F p := by
  intro p hp
  unfold copyAt at hp
  rcases List.mem_append.1 hp with hp | hp
  · rcases List.mem_append.1 hp with hp | hp
    · exact hx p (List.mem_of_mem_take hp)
    · exact hy p (List.mem_of_mem_take hp)
  · exact hx p (List.mem_of_mem_drop hp)

theorem set_own {F : Nat → Prop} {xs : List Ptr} {n : Nat} {c : Ptr} (hx : ∀ p ∈ xs, Own F p) (hc : Own F c) : ∀ p ∈ xs.set n c, Own F p := by
  intro p hp
  rcases List.mem_or_eq_of_mem_set hp with h | rfl
  · exact hx p h
  · exact hc

theorem push_own {F : Nat → Prop} {xs : List Ptr} {c : Ptr} (hx : ∀ p ∈ xs, Own F p) (hc : Own F c) : ∀ p ∈ xs ++ [c], Own F p := by
  intro p hp
  rcases List.mem_append.1 hp with h | h
  · exact hx p h
  · cases List.mem_singleton.1 h; exact hc

theorem insertToArr_own {F : Nat → Prop} {xs ys : List Ptr} {n : Nat} {c : Ptr} (hx : ∀ p ∈ xs, Own F p) (hc : Own F c) (h : insertToArr xs n c = .ok ys) :
    ∀ p ∈ ys, Own F p := by
  have h0 : ∀ p ∈ xs ++ [(HasNil.nilv : Ptr)], Own F p := push_own hx own_none
  unfold insertToArr at h
  dsimp only at h
  split at h
  · split at h
    · cases h
      exact set_own (copyAt_own h0 fun p hp => h0 p (List.mem_of_mem_drop hp)) hc
    · cases h
  · cases h

theorem deleteInArr_own {F : Nat → Prop} {xs ys : List Ptr} {n : Nat} (hx : ∀ p ∈ xs, Own F p) (h : deleteInArr xs n = .ok ys) : ∀ p ∈ ys, Own F p := by
  have h0 : ∀ p ∈ xs.set n (HasNil.nilv : Ptr), Own F p := set_own hx own_none
  unfold deleteInArr at h
  dsimp only at h
  split at h
  · cases h
    intro p hp
    exact copyAt_own h0 (fun q hq => h0 q (List.mem_of_mem_drop hq)) p (List.mem_of_mem_take hp)
  · cases h

theorem setAtIndex_own {F : Nat → Prop} {xs ys : List Ptr} {n : Int} {i : Nat} {c : Ptr} (hx : ∀ p ∈ xs, Own F p) (hc : Own F c)
    (h : setAtIndex xs c n = .ok (ys, i)) : ∀ p ∈ ys, Own F p := by
  unfold setAtIndex at h
  split at h
  · cases h; exact push_own hx hc
  · dsimp only at h
    split at h
    · cases h
    · split at h
      · cases h; exact set_own hx hc
      · cases h

theorem keepsTo_set {F G : Nat → Prop} (E : Env) {v c : Ptr} (hv : Own F v) (hc : Own F c) (p : Param) : KeepsTo F G (OwnR F) (aSetLast E v c p) := by
  cases v with
  | none => exact ownR_panic
  | some a =>
    have ha := hv a rfl
    refine ⟨F, .inl rfl, ha, fun d hd => ?_⟩
    cases d with
    | none => exact ownR_panic
    | some d =>
      have hd := hd d rfl
      cases d with
      | obj n kvs low =>
        dsimp only
        split
        · refine ⟨ha, cellIn_obj.2 (hassign_own hc (cellIn_obj.1 hd)), ha, fun l => ?_⟩
          cases l with
          | none => exact ownR_ok hc
          | some l => exact ⟨ha, ownR_ok hc⟩
        · exact ownR_err
        · exact ownR_panic
      | arr xs =>
        dsimp only
        split
        · split
          · next h => exact ⟨ha, cellIn_arr.2 (setAtIndex_own hd hc h), ownR_ok hc⟩
          · exact ownR_err
          · exact ownR_panic
        · exact ownR_err
        · exact ownR_panic
      | _ => exact ownR_err

theorem keepsTo_make {F G : Nat → Prop} {a : Nat} {c : Cell} (ha : F a) (hc : CellIn F c) : KeepsTo F G (OwnR F) (aMake a c) :=
  ⟨ha, cellIn_plain.2 hc, ha, ownR_ok fun b hb => by cases hb; exact ha⟩

theorem keepsTo_insert {F G : Nat → Prop} (after : Bool) {v c : Ptr} (hv : Own F v) (hc : Own F c) (p : Param) : KeepsTo F G (OwnR F) (aInsertLast after v c p) := by
  cases v with
  | none =>
    unfold aInsertLast
    dsimp only
    split
    · exact ownR_err
    · exact ownR_panic
  | some a =>
    have ha := hv a rfl
    refine ⟨F, .inl rfl, ha, fun d hd => ?_⟩
    cases d with
    | none => exact ownR_panic
    | some d =>
      have hd := hd d rfl
      cases d with
      | arr xs =>
        dsimp only
        split
        · generalize (if after then posForInsertAfter xs.length _ else (posForInsertBefore xs.length _, false)) = q
          split
          · exact ownR_err
          · split
            · exact ⟨ha, cellIn_arr.2 (push_own hd hc), ownR_ok hc⟩
            · split
              · next h => exact ⟨ha, cellIn_arr.2 (insertToArr_own hd hc h), ownR_ok hc⟩
              · exact ownR_panic
        · exact ownR_err
        · exact ownR_panic
      | _ => exact ownR_err

theorem keepsTo_append {F G : Nat → Prop} (beg : Bool) {v c : Ptr} (hv : Own F v) (hc : Own F c) : KeepsTo F G (OwnR F) (aAppendTo beg v c) := by
  cases v with
  | none => exact ownR_panic
  | some a =>
    have ha := hv a rfl
    refine ⟨F, .inl rfl, ha, fun d hd => ?_⟩
    cases d with
    | none => exact ownR_panic
    | some d =>
      have hd := hd d rfl
      cases d with
      | arr xs =>
        dsimp only
        split
        · split
          · next h => exact ⟨ha, cellIn_arr.2 (insertToArr_own hd hc h), ownR_ok hc⟩
          · exact ownR_panic
        · exact ⟨ha, cellIn_arr.2 (push_own hd hc), ownR_ok hc⟩
      | _ => exact ownR_ok hc

theorem keepsTo_drop {F G : Nat → Prop} (E : Env) {a : Nat} (ha : F a) (n : BitVec 32) {kvs : List HEnt} (hk : ∀ e ∈ kvs, Own F e.v) (k : Bytes) :
    KeepsTo F G (OwnR F) (aDropKey E a n kvs k) := by
  refine ⟨ha, cellIn_obj.2 (herase_own hk), ha, fun l => ?_⟩
  cases l with
  | none => exact ownR_ok own_none
  | some l => exact ⟨ha, ownR_ok own_none⟩

theorem keepsTo_delete {F G : Nat → Prop} (E : Env) (cl : Bool) {v : Ptr} (hv : Own F v) (p : Param) : KeepsTo F G (OwnR F) (aDeleteLast E cl v p) := by
  cases v with
  | none => exact ownR_panic
  | some a =>
    have ha := hv a rfl
    refine ⟨F, .inl rfl, ha, fun d hd => ?_⟩
    cases d with
    | none => exact ownR_panic
    | some d =>
      have hd := hd d rfl
      cases d with
      | obj n kvs low =>
        have hk := cellIn_obj.1 hd
        dsimp only
        split
        · unfold aDelKey
          split
          · exact keepsTo_drop E ha n hk _
          · split
            · exact ownR_err
            · refine keepsTo_init E ha (k := .readIndex a _) ⟨ha, fun l => ?_⟩ kvs
              split
              · exact ownR_err
              · split
                · exact ownR_err
                · exact keepsTo_drop E ha n hk _
        · exact ownR_err
        · exact ownR_panic
      | arr xs =>
        dsimp only
        split
        · split
          · exact ownR_err
          · split
            · next h => exact ⟨ha, cellIn_arr.2 (deleteInArr_own hd h), ownR_ok own_none⟩
            · exact ownR_panic
        · exact ownR_err
        · exact ownR_panic
      | _ => exact ownR_err

/-! ## they are the functions of the heap model -/

theorem setNode_arr {m : Mem} {a : Nat} {ys : List Ptr} : m.setNode a (.arr ys) = { m with heap := m.heap.set a (.arr ys) } := rfl

theorem setNode_obj {m : Mem} {a : Nat} {n n' : BitVec 32} {kvs kvs' : List HEnt} {low : Low} (h : m.heap[a]? = some (.obj n kvs low)) :
    m.setNode a (.obj n' kvs' none) = { m with heap := m.heap.set a (.obj n' kvs' low) } := by
  simp only [Mem.setNode, Mem.index, h, Cell.index, Cell.withIndex]

theorem run_make {a : Nat} {m : Mem} (c : Cell) (h : a < m.heap.length) : (aMake a c).run m = m.gives (m.heap.set a c, .ok (some a)) := by
  have h1 : (m.setNode a c.plain).heap[a]? = some (c.plain.withIndex (m.index a)) := by
    rw [setNode_self, List.getElem?_eq_getElem h]; rfl
  simp only [aMake, Act.run, Mem.setIndex, h1]
  simp only [Mem.setNode, List.set_set, Mem.gives]
  cases c <;> rfl

theorem run_setKey (E : Env) {a : Nat} {n : BitVec 32} {kvs : List HEnt} {low : Low} (k : Bytes) (c : Ptr) (m : Mem) (h : m.heap[a]? = some (.obj n kvs low)) :
    (aSetKey E a n kvs k c).run m = m.gives (hsetKey E m.heap a k c) := by
  have hlt := (List.getElem?_eq_some_iff.1 h).1
  simp only [aSetKey, Act.run, setNode_obj h, hsetKey, h]
  have hi : Mem.index { m with heap := m.heap.set a (.obj (n + 1) (hassign ⟨k, n + 1, c⟩ kvs) low) } a = low := by
    simp only [Mem.index, List.getElem?_set_self hlt]; rfl
  rw [hi]
  cases low with
  | none => rfl
  | some l =>
    simp only [Act.run]
    rw [setIndex_obj (n := n + 1) (kvs := hassign ⟨k, n + 1, c⟩ kvs) (low := some l) (by simp only [List.getElem?_set_self hlt])]
    simp only [List.set_set]
    rfl

theorem run_setLast (E : Env) (v c : Ptr) (p : Param) (m : Mem) : (aSetLast E v c p).run m = m.gives (hatLast E m.heap v c p) := by
  cases v with
  | none => rfl
  | some a =>
    simp only [aSetLast, Act.run, hatLast, Mem.node]
    cases hc : m.heap[a]? with
    | none => rfl
    | some d =>
      cases d with
      | obj n kvs low =>
        simp only [Option.map_some, Cell.plain]
        cases anyToString p with
        | ok key => exact run_setKey E key c m hc
        | _ => rfl
      | arr xs =>
        simp only [Option.map_some, Cell.plain]
        cases anyToInt p with
        | ok pos =>
          dsimp only
          cases setAtIndex xs c pos <;> rfl
        | _ => rfl
      | _ => rfl

theorem run_insertLast (after : Bool) (v c : Ptr) (p : Param) (m : Mem) : (aInsertLast after v c p).run m = m.gives (hinsertLast after m.heap v c p) := by
  cases v with
  | none => cases after <;> rfl
  | some a =>
    simp only [aInsertLast, Act.run, hinsertLast, Mem.node]
    cases hc : m.heap[a]? with
    | none => rfl
    | some d =>
      cases d with
      | arr xs =>
        simp only [Option.map_some, Cell.plain]
        cases anyToInt p with
        | ok pos =>
          dsimp only
          generalize (if after then posForInsertAfter xs.length pos else (posForInsertBefore xs.length pos, false)) = q
          by_cases h1 : q.1 < 0
          · rw [if_pos h1, if_pos h1]; rfl
          · rw [if_neg h1, if_neg h1]
            cases q.2 with
            | true => rfl
            | false =>
              simp only [Bool.false_eq_true, if_false]
              cases insertToArr xs q.1.toNat c <;> rfl
        | _ => rfl
      | _ => rfl

theorem run_appendTo (beg : Bool) (v c : Ptr) (m : Mem) : (aAppendTo beg v c).run m = m.gives (happendTo beg m.heap v c) := by
  cases v with
  | none => rfl
  | some a =>
    simp only [aAppendTo, Act.run, happendTo, Mem.node]
    cases hc : m.heap[a]? with
    | none => rfl
    | some d =>
      cases d with
      | arr xs =>
        simp only [Option.map_some, Cell.plain]
        cases beg && !xs.isEmpty with
        | true =>
          simp only [if_true]
          cases insertToArr xs 0 c <;> rfl
        | false => rfl
      | _ => rfl

theorem run_drop (E : Env) {a : Nat} {n : BitVec 32} {kvs : List HEnt} {low : Low} (k : Bytes) (m : Mem) (h : m.heap[a]? = some (.obj n kvs low)) :
    (aDropKey E a n kvs k).run m = m.gives (m.heap.set a (.obj n (herase k kvs) (delCaseless E low k)), .ok none) := by
  have hlt := (List.getElem?_eq_some_iff.1 h).1
  simp only [aDropKey, Act.run, setNode_obj h]
  have hi : Mem.index { m with heap := m.heap.set a (.obj n (herase k kvs) low) } a = low := by
    simp only [Mem.index, List.getElem?_set_self hlt]; rfl
  rw [hi]
  cases low with
  | none => rfl
  | some l =>
    simp only [Act.run]
    rw [setIndex_obj (n := n) (kvs := herase k kvs) (low := some l) (by simp only [List.getElem?_set_self hlt])]
    simp only [List.set_set]
    rfl

theorem run_deleteLast (E : Env) (cl : Bool) (v : Ptr) (p : Param) (m : Mem) : (aDeleteLast E cl v p).run m = m.gives (hdeleteLast E cl m.heap v p) := by
  cases v with
  | none => rfl
  | some a =>
    simp only [aDeleteLast, Act.run, hdeleteLast, Mem.node]
    cases hc : m.heap[a]? with
    | none => rfl
    | some d =>
      cases d with
      | obj n kvs low =>
        simp only [Option.map_some, Cell.plain]
        cases anyToString p with
        | ok key =>
          dsimp only
          unfold aDelKey findKey
          rw [keysOf_lookup]
          cases hl : hlookup key kvs with
          | some e =>
            simp only [Option.isSome_some, if_true]
            exact run_drop E key m hc
          | none =>
            simp only [Option.isSome_none, Bool.false_eq_true, if_false]
            cases cl with
            | false => simp only [Bool.not_false, if_true, set_same hc]; rfl
            | true =>
              simp only [Bool.not_true, Bool.false_eq_true, if_false]
              rw [run_init E _ m hc]
              have hlt := (List.getElem?_eq_some_iff.1 hc).1
              have hi : Mem.index { m with heap := m.heap.set a (.obj n kvs (some (initCaseless E (keysOf kvs) low))) } a = some (initCaseless E (keysOf kvs) low) := by
                unfold Mem.index
                simp only [List.getElem?_set_self hlt]
                rfl
              simp only [Act.run, hi, Option.getD_some]
              cases lowGet (E.toLower key) (initCaseless E (keysOf kvs) low) with
              | none => rfl
              | some ks =>
                dsimp only
                cases firstPresent (keysOf kvs) ks with
                | none => rfl
                | some k =>
                  dsimp only
                  rw [run_drop E (low := some (initCaseless E (keysOf kvs) low)) k _ (by simp only [List.getElem?_set_self hlt])]
                  simp only [Mem.gives, List.set_set]
        | _ => rfl
      | arr xs =>
        simp only [Option.map_some, Cell.plain]
        cases anyToInt p with
        | ok pos =>
          dsimp only
          by_cases h1 : posForRead xs.length pos < 0
          · rw [if_pos h1, if_pos h1]; rfl
          · rw [if_neg h1, if_neg h1]
            cases deleteInArr xs (posForRead xs.length pos).toNat <;> rfl
        | _ => rfl
      | _ => rfl

end JV
