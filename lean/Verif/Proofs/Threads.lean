import Verif.Spec.Threads
import Verif.Proofs.HeapLow
/-! Goroutines: readers do not disturb each other, a lock makes critical sections atomic. -/
namespace JV
open Spec

variable {α β : Type}

/-! ## single steps -/

theorem run_step {m m' : Mem} {p q : Act α} (h : p.step m = some (m', q)) : q.run m' = p.run m := by
  cases p <;> simp only [Act.step, Option.some.injEq, Prod.mk.injEq, reduceCtorEq] at h <;> obtain ⟨rfl, rfl⟩ := h <;> rfl

theorem readOnly_step {m m' : Mem} {p q : Act α} (hr : ReadOnly p) (h : p.step m = some (m', q)) : m' = m ∧ ReadOnly q := by
  cases p <;> simp only [Act.step, Option.some.injEq, Prod.mk.injEq, reduceCtorEq] at h <;> obtain ⟨rfl, rfl⟩ := h <;>
    first | exact ⟨rfl, hr _⟩ | exact hr.elim

theorem readOnly_access {p : Act α} (hr : ReadOnly p) {x : Loc × Bool} (h : p.access = some x) : x.2 = false := by
  cases p <;> simp only [Act.access, Option.some.injEq, reduceCtorEq] at h <;> first | (subst h; rfl) | exact hr.elim

theorem readOnly_run {p : Act α} (m : Mem) (hr : ReadOnly p) : (p.run m).1 = m := by
  induction p with
  | ret r => rfl
  | read a k ih => exact ih _ (hr _)
  | readIndex a k ih => exact ih _ (hr _)
  | readOptions k ih => exact ih _ (hr _)
  | write => exact hr.elim
  | writeIndex => exact hr.elim
  | writeOptions => exact hr.elim
  | alloc => exact hr.elim

theorem run_andThen (p : Act α) (f : R α → Act β) (m : Mem) : (p.andThen f).run m = (f (p.run m).2).run (p.run m).1 := by
  induction p generalizing m with
  | ret r => rfl
  | read a k ih => exact ih _ _
  | readIndex a k ih => exact ih _ _
  | readOptions k ih => exact ih _ _
  | write a c k ih => exact ih _
  | writeIndex a l k ih => exact ih _
  | writeOptions o k ih => exact ih _
  | alloc c k ih => exact ih _ _

theorem readOnly_andThen {p : Act α} {f : R α → Act β} (hp : ReadOnly p) (hf : ∀ r, ReadOnly (f r)) : ReadOnly (p.andThen f) := by
  induction p with
  | ret r => exact hf r
  | read a k ih => exact fun c => ih c (hp c)
  | readIndex a k ih => exact fun c => ih c (hp c)
  | readOptions k ih => exact fun c => ih c (hp c)
  | write => exact hp.elim
  | writeIndex => exact hp.elim
  | writeOptions => exact hp.elim
  | alloc => exact hp.elim

theorem readOnly_onOk {p : Act α} {f : α → Act β} (hp : ReadOnly p) (hf : ∀ a, ReadOnly (f a)) : ReadOnly (p.onOk f) := by
  refine readOnly_andThen hp fun r => ?_
  cases r with
  | ok a => exact hf a
  | _ => exact True.intro

/-! ## the readers of the library -/

theorem readOnly_locate (E : Env) (v : Ptr) (p : Param) : ReadOnly (aLocate E false v p) := by
  cases v with
  | none => exact True.intro
  | some a =>
    intro c
    cases c with
    | none => exact True.intro
    | some c =>
      cases c with
      | arr xs =>
        dsimp only
        cases anyToInt p with
        | ok pos =>
          dsimp only
          split
          · exact True.intro
          · split <;> exact True.intro
        | _ => exact True.intro
      | obj n kvs low =>
        dsimp only
        cases anyToString p with
        | ok key =>
          dsimp only [aFind]
          split <;> exact True.intro
        | _ => exact True.intro
      | _ => exact True.intro

mutual
theorem readOnly_get1 (E : Env) (v : Ptr) : ∀ p, ReadOnly (aGet1 E false v p)
  | .slice qs => by
    unfold aGet1
    split
    · exact readOnly_locate E v _
    · exact readOnly_get E v qs
  | .str s => by unfold aGet1; exact readOnly_locate E v _
  | .uint i => by unfold aGet1; exact readOnly_locate E v _
  | .int i => by unfold aGet1; exact readOnly_locate E v _
  | .nil => by unfold aGet1; exact readOnly_locate E v _
  | .other => by unfold aGet1; exact readOnly_locate E v _
theorem readOnly_get (E : Env) (v : Ptr) : ∀ ps, ReadOnly (aGet E false v ps)
  | [] => True.intro
  | p :: rest => by
    have h1 := readOnly_get1 E v p
    unfold aGet
    split
    · exact h1
    · split
      · exact True.intro
      · exact readOnly_onOk (readOnly_locate E v p) fun c => readOnly_get E c rest
end

theorem readOnly_look (v : Ptr) (f : Cell → R α) : ReadOnly (aLook v f) := by
  cases v with
  | none => exact True.intro
  | some a => intro c; cases c <;> exact True.intro

theorem readOnly_readList {f : Ptr → Act V} (hf : ∀ p, ReadOnly (f p)) : ∀ ps, ReadOnly (aReadList f ps)
  | [] => True.intro
  | p :: ps => readOnly_onOk (hf p) fun _ => readOnly_onOk (readOnly_readList hf ps) fun _ => True.intro

theorem readOnly_read : ∀ (n : Nat) (v : Ptr), ReadOnly (aRead n v)
  | 0, _ => True.intro
  | n + 1, none => True.intro
  | n + 1, some a => fun
    | none => True.intro
    | some .notExist => True.intro
    | some (.str _) => True.intro
    | some (.num _ _) => True.intro
    | some (.bool _) => True.intro
    | some .null => True.intro
    | some (.arr xs) => readOnly_onOk (readOnly_readList (fun p => readOnly_read n p) xs) fun _ => True.intro
    | some (.obj _ kvs _) => readOnly_onOk (readOnly_readList (fun p => readOnly_read n p) _) fun _ => True.intro

theorem readOnly_marshal (E : Env) (S : SortFn) (n : Nat) (v : Ptr) (opts : List MOpt) : ReadOnly (aMarshal E S n v opts) :=
  fun _ => readOnly_onOk (readOnly_read n v) fun _ => True.intro

theorem readOnly_equal (D : DecFn) (n : Nat) (v w : Ptr) : ReadOnly (aEqual D n v w) :=
  readOnly_onOk (readOnly_read n v) fun _ => readOnly_onOk (readOnly_read n w) fun _ => True.intro

theorem readOnly_contains (E : Env) (D : DecFn) (n : Nat) (v w : Ptr) (path : List Param) : ReadOnly (aContains E D n v w path) :=
  readOnly_onOk (readOnly_read n v) fun _ => readOnly_onOk (readOnly_read n w) fun _ => True.intro

theorem readOnly_compare (v w : Ptr) (f : Cell → Cell → R α) : ReadOnly (aCompare v w f) :=
  readOnly_onOk (readOnly_look v _) fun _ => readOnly_onOk (readOnly_look w _) fun _ => True.intro

theorem readOnly_each {f : α → Ptr → Act Bool} (hf : ∀ k c, ReadOnly (f k c)) : ∀ l, ReadOnly (aEach f l)
  | [] => True.intro
  | (k, c) :: l => readOnly_onOk (hf k c) fun go => by
    cases go
    · exact True.intro
    · exact readOnly_each hf l

theorem readOnly_rangeObjects (order : List HEnt → List HEnt) (v : Ptr) {f : Bytes → Ptr → Act Bool} (hf : ∀ k c, ReadOnly (f k c)) :
    ReadOnly (aRangeObjects order v f) :=
  readOnly_onOk (readOnly_look v _) fun c => by cases c <;> first | exact True.intro | exact readOnly_each hf _

theorem readOnly_rangeArray (v : Ptr) {f : Nat → Ptr → Act Bool} (hf : ∀ k c, ReadOnly (f k c)) : ReadOnly (aRangeArray v f) :=
  readOnly_onOk (readOnly_look v _) fun c => by cases c <;> first | exact True.intro | exact readOnly_each hf _

/-! ## readers among themselves -/

theorem world_readers {w w' : World α} (h : World.Steps w w') (hr : ∀ p ∈ w.threads, ReadOnly p) :
    w'.mem = w.mem ∧ w'.threads.length = w.threads.length ∧ ∀ (i : Nat) p, w.threads[i]? = some p →
      ∃ q, w'.threads[i]? = some q ∧ ReadOnly q ∧ q.run w.mem = p.run w.mem := by
  induction h with
  | refl => exact ⟨rfl, rfl, fun i p h => ⟨p, h, hr p (List.mem_of_getElem? h), rfl⟩⟩
  | @snoc x y _ s ih =>
    obtain ⟨hm, hl, ht⟩ := ih
    obtain ⟨i, p, q, m, hp, hs⟩ := s
    have hi : i < w.threads.length := by rw [← hl]; exact (List.getElem?_eq_some_iff.1 hp).1
    obtain ⟨q0, hq0, hro, hrun⟩ := ht i _ (List.getElem?_eq_getElem hi)
    rw [hp] at hq0
    cases hq0
    have h1 := readOnly_step hro hs
    have h2 := run_step hs
    refine ⟨h1.1.trans hm, by simp [hl], fun j pj hj => ?_⟩
    by_cases hij : i = j
    · subst hij
      refine ⟨q, by simp [List.getElem?_set_self (show i < x.threads.length by omega)], h1.2, ?_⟩
      rw [List.getElem?_eq_getElem hi] at hj
      cases hj
      rw [← hrun]
      rw [h1.1, hm] at h2
      exact h2
    · obtain ⟨q1, a, b, c⟩ := ht j pj hj
      exact ⟨q1, by simp only [List.getElem?_set_ne hij]; exact a, b, c⟩

theorem no_race_of_readers {w : World α} (hr : ∀ p ∈ w.threads, ReadOnly p) : ¬ w.Race := by
  rintro ⟨i, j, p, q, x, y, -, hp, hq, hx, hy, -, h⟩
  rcases h with h | h
  · rw [readOnly_access (hr p (List.mem_of_getElem? hp)) hx] at h; cases h
  · rw [readOnly_access (hr q (List.mem_of_getElem? hq)) hy] at h; cases h

/-! ## a lock -/

/-- what holds between the goroutines and a serial execution in which those inside have not entered yet -/
structure Behaves (s : Locked α) (m : Mem) (cs : List (Client α)) : Prop where
  len : cs.length = s.places.length
  outside : ∀ (i : Nat) c, s.places[i]? = some (.outside c) → cs[i]? = some c
  inside : ∀ (i : Nat) w p k q, s.places[i]? = some (.inside w p k q) → cs[i]? = some (.locked w p k) ∧ q.run s.mem = p.run m ∧ (w = false → ReadOnly q)
  alone : ∀ (i j : Nat) w p k q w' p' k' q', i ≠ j → s.places[i]? = some (.inside w p k q) → s.places[j]? = some (.inside w' p' k' q') → w = false ∧ w' = false
  same : (∀ (i : Nat) w p k q, s.places[i]? = some (.inside w p k q) → w = false) → s.mem = m
  ok : ∀ c ∈ cs, Disciplined c

theorem behaves_start {m : Mem} {cs : List (Client α)} (h : ∀ c ∈ cs, Disciplined c) : Behaves { mem := m, places := cs.map .outside } m cs := by
  have ho : ∀ (i : Nat) x, (cs.map Place.outside)[i]? = some x → ∃ c, cs[i]? = some c ∧ x = .outside c := by
    intro i x hx
    rw [List.getElem?_map] at hx
    cases hc : cs[i]? with
    | none => rw [hc] at hx; cases hx
    | some c => rw [hc] at hx; cases hx; exact ⟨c, rfl, rfl⟩
  refine ⟨by simp, fun i c hc => ?_, fun i w p k q hc => ?_, fun i j w p k q w' p' k' q' _ hc => ?_, fun _ => rfl, h⟩
  · obtain ⟨d, hd, he⟩ := ho i _ hc; cases he; exact hd
  · obtain ⟨d, hd, he⟩ := ho i _ hc; cases he
  · obtain ⟨d, hd, he⟩ := ho i _ hc; cases he

theorem getElem?_set_cases {γ : Type} {l : List γ} {i j : Nat} {a x : γ} (h : (l.set i a)[j]? = some x) : (i = j ∧ x = a) ∨ (i ≠ j ∧ l[j]? = some x) := by
  by_cases hij : i = j
  · subst hij
    have : i < l.length := by have := (List.getElem?_eq_some_iff.1 h).1; simpa using this
    rw [List.getElem?_set_self this] at h
    cases h
    exact .inl ⟨rfl, rfl⟩
  · rw [List.getElem?_set_ne hij] at h
    exact .inr ⟨hij, h⟩

theorem behaves_step {s t : Locked α} {m0 m : Mem} {cs0 cs : List (Client α)} (hser : Serial m0 cs0 m cs) (hb : Behaves s m cs) (h : Locked.Step s t) :
    ∃ m' cs', Serial m0 cs0 m' cs' ∧ Behaves t m' cs' := by
  cases h with
  | enter i w p k hi hf =>
    have hno : ∀ (j : Nat) w' p' k' q', s.places[j]? = some (.inside w' p' k' q') → w = false ∧ w' = false :=
      fun j w' p' k' q' hj => hf w' p' k' q' (List.mem_of_getElem? hj)
    have hm : s.mem = m := hb.same fun j w' p' k' q' hj => (hno j w' p' k' q' hj).2
    have hci := hb.outside i _ hi
    refine ⟨m, cs, hser, ?_⟩
    refine ⟨by simp [hb.len], fun j c hj => ?_, fun j w' p' k' q' hj => ?_, fun a b w1 p1 k1 q1 w2 p2 k2 q2 hab h1 h2 => ?_, fun _ => hm, hb.ok⟩
    · rcases getElem?_set_cases hj with ⟨_, h⟩ | ⟨_, h⟩
      · cases h
      · exact hb.outside j c h
    · rcases getElem?_set_cases hj with ⟨hij, h⟩ | ⟨_, h⟩
      · cases h
        subst hij
        exact ⟨hci, by rw [hm], (hb.ok _ (List.mem_of_getElem? hci)).1⟩
      · exact hb.inside j w' p' k' q' h
    · rcases getElem?_set_cases h1 with ⟨ha, e1⟩ | ⟨_, h1⟩
      · cases e1
        rcases getElem?_set_cases h2 with ⟨hb', _⟩ | ⟨_, h2⟩
        · exact absurd (ha.symm.trans hb') hab
        · exact hno b _ _ _ _ h2
      · rcases getElem?_set_cases h2 with ⟨_, e2⟩ | ⟨_, h2⟩
        · cases e2
          exact (hno a _ _ _ _ h1).symm
        · exact hb.alone a b _ _ _ _ _ _ _ _ hab h1 h2
  | work i w p k q q' m' hi hs =>
    obtain ⟨hci, hrun, hro⟩ := hb.inside i w p k q hi
    refine ⟨m, cs, hser, ?_⟩
    refine ⟨by simp [hb.len], fun j c hj => ?_, fun j w1 p1 k1 q1 hj => ?_, fun a b w1 p1 k1 q1 w2 p2 k2 q2 hab h1 h2 => ?_, fun hno => ?_, hb.ok⟩
    · rcases getElem?_set_cases hj with ⟨_, h⟩ | ⟨_, h⟩
      · cases h
      · exact hb.outside j c h
    · rcases getElem?_set_cases hj with ⟨hij, h⟩ | ⟨hij, h⟩
      · cases h
        subst hij
        exact ⟨hci, (run_step hs).trans hrun, fun hw => (readOnly_step (hro hw) hs).2⟩
      · have hw := hb.alone i j _ _ _ _ _ _ _ _ hij hi h
        have hme : m' = s.mem := (readOnly_step (hro hw.1) hs).1
        rw [show ({ mem := m', places := s.places.set i (.inside w p k q') } : Locked α).mem = s.mem from hme]
        exact hb.inside j _ _ _ _ h
    · rcases getElem?_set_cases h1 with ⟨ha, e1⟩ | ⟨_, h1⟩
      · cases e1
        subst ha
        rcases getElem?_set_cases h2 with ⟨hb', _⟩ | ⟨_, h2⟩
        · exact absurd hb' hab
        · exact hb.alone _ b _ _ _ _ _ _ _ _ hab hi h2
      · rcases getElem?_set_cases h2 with ⟨hb', e2⟩ | ⟨_, h2⟩
        · cases e2
          subst hb'
          exact hb.alone a _ _ _ _ _ _ _ _ _ hab h1 hi
        · exact hb.alone a b _ _ _ _ _ _ _ _ hab h1 h2
    · have hlt : i < s.places.length := (List.getElem?_eq_some_iff.1 hi).1
      have hw : w = false := hno i w p k q' (List.getElem?_set_self hlt)
      have hme : m' = s.mem := (readOnly_step (hro hw) hs).1
      rw [show ({ mem := m', places := s.places.set i (.inside w p k q') } : Locked α).mem = s.mem from hme]
      refine hb.same fun j w1 p1 k1 q1 hj => ?_
      by_cases hij : i = j
      · subst hij; rw [hi] at hj; cases hj; exact hw
      · exact hno j w1 p1 k1 q1 (by rw [show ({ mem := m', places := s.places.set i (.inside w p k q') } : Locked α).places = s.places.set i _ from rfl,
          List.getElem?_set_ne hij]; exact hj)
  | leave i w p k r hi =>
    obtain ⟨hci, hrun, hro⟩ := hb.inside i w p k _ hi
    have hp : p.run m = (s.mem, r) := hrun.symm
    have hser' := Serial.next hser i w p k hci
    rw [hp] at hser'
    have hlt : i < cs.length := (List.getElem?_eq_some_iff.1 hci).1
    refine ⟨_, _, hser', ?_⟩
    refine ⟨by simp [hb.len], fun j c hj => ?_, fun j w1 p1 k1 q1 hj => ?_, fun a b w1 p1 k1 q1 w2 p2 k2 q2 hab h1 h2 => ?_, fun _ => rfl, fun c hc => ?_⟩
    · rcases getElem?_set_cases hj with ⟨hij, h⟩ | ⟨hij, h⟩
      · cases h
        subst hij
        exact List.getElem?_set_self hlt
      · rw [List.getElem?_set_ne hij]; exact hb.outside j c h
    · rcases getElem?_set_cases hj with ⟨_, h⟩ | ⟨hij, h⟩
      · cases h
      · have hw := hb.alone i j _ _ _ _ _ _ _ _ hij hi h
        have hme : s.mem = m := by
          have := readOnly_run m ((hb.ok _ (List.mem_of_getElem? hci)).1 hw.1)
          rw [hp] at this
          exact this
        obtain ⟨a, b, c⟩ := hb.inside j _ _ _ _ h
        refine ⟨by rw [List.getElem?_set_ne hij]; exact a, ?_, c⟩
        rw [show ({ s with places := s.places.set i (.outside (k r)) } : Locked α).mem = s.mem from rfl, b, hme]
    · rcases getElem?_set_cases h1 with ⟨_, e1⟩ | ⟨_, h1⟩
      · cases e1
      · rcases getElem?_set_cases h2 with ⟨_, e2⟩ | ⟨_, h2⟩
        · cases e2
        · exact hb.alone a b _ _ _ _ _ _ _ _ hab h1 h2
    · rcases List.mem_or_eq_of_mem_set hc with h | h
      · exact hb.ok c h
      · rw [h]; exact (hb.ok _ (List.mem_of_getElem? hci)).2 r

theorem behaves_steps {m : Mem} {cs : List (Client α)} {s t : Locked α} (hs : s = { mem := m, places := cs.map .outside }) (h : Locked.Steps s t)
    (hd : ∀ c ∈ cs, Disciplined c) : ∃ m' cs', Serial m cs m' cs' ∧ Behaves t m' cs' := by
  induction h with
  | refl => subst hs; exact ⟨m, cs, .start m cs, behaves_start hd⟩
  | snoc _ x ih =>
    obtain ⟨m', cs', h1, h2⟩ := ih
    exact behaves_step h1 h2 x

theorem behaves_no_race {s : Locked α} {m : Mem} {cs : List (Client α)} (hb : Behaves s m cs) : ¬ s.Race := by
  rintro ⟨i, j, p, q, x, y, hij, hp, hq, hx, hy, -, h⟩
  cases p with
  | outside c => cases hx
  | inside w p k q1 =>
    cases q with
    | outside c => cases hy
    | inside w' p' k' q2 =>
      have hw := hb.alone i j _ _ _ _ _ _ _ _ hij hp hq
      rcases h with h | h
      · rw [readOnly_access ((hb.inside i _ _ _ _ hp).2.2 hw.1) hx] at h; cases h
      · rw [readOnly_access ((hb.inside j _ _ _ _ hq).2.2 hw.2) hy] at h; cases h

/-! ## the default options -/

theorem keepsValues_step {m m' : Mem} {p q : Act α} (hr : KeepsValues p) (h : p.step m = some (m', q)) :
    m'.heap = m.heap ∧ KeepsValues q ∧ (∀ d, MaySet d q → MaySet d p) ∧ (m'.options = m.options ∨ MaySet m'.options p) := by
  cases p with
  | ret r => cases h
  | read a k => cases h; exact ⟨rfl, hr _, fun d h => ⟨_, h⟩, .inl rfl⟩
  | readIndex a k => cases h; exact ⟨rfl, hr _, fun d h => ⟨_, h⟩, .inl rfl⟩
  | readOptions k => cases h; exact ⟨rfl, hr _, fun d h => ⟨_, h⟩, .inl rfl⟩
  | writeOptions o k => cases h; exact ⟨rfl, hr, fun d h => .inr h, .inr (.inl rfl)⟩
  | write => exact hr.elim
  | writeIndex => exact hr.elim
  | alloc => exact hr.elim

/-- code that reads the default options no more -/
def NoOptions : Act α → Prop
  | .ret _ => True
  | .read _ k => ∀ c, NoOptions (k c)
  | .readIndex _ k => ∀ l, NoOptions (k l)
  | _ => False

theorem noOptions_andThen {p : Act α} {f : R α → Act β} (hp : NoOptions p) (hf : ∀ r, NoOptions (f r)) : NoOptions (p.andThen f) := by
  induction p with
  | ret r => exact hf r
  | read a k ih => exact fun c => ih c (hp c)
  | readIndex a k ih => exact fun c => ih c (hp c)
  | _ => exact hp.elim

theorem noOptions_onOk {p : Act α} {f : α → Act β} (hp : NoOptions p) (hf : ∀ a, NoOptions (f a)) : NoOptions (p.onOk f) := by
  refine noOptions_andThen hp fun r => ?_
  cases r with
  | ok a => exact hf a
  | _ => exact True.intro

theorem noOptions_readList {f : Ptr → Act V} (hf : ∀ p, NoOptions (f p)) : ∀ ps, NoOptions (aReadList f ps)
  | [] => True.intro
  | p :: ps => noOptions_onOk (hf p) fun _ => noOptions_onOk (noOptions_readList hf ps) fun _ => True.intro

theorem noOptions_read : ∀ (n : Nat) (v : Ptr), NoOptions (aRead n v)
  | 0, _ => True.intro
  | n + 1, none => True.intro
  | n + 1, some a => fun
    | none => True.intro
    | some .notExist => True.intro
    | some (.str _) => True.intro
    | some (.num _ _) => True.intro
    | some (.bool _) => True.intro
    | some .null => True.intro
    | some (.arr xs) => noOptions_onOk (noOptions_readList (fun p => noOptions_read n p) xs) fun _ => True.intro
    | some (.obj _ kvs _) => noOptions_onOk (noOptions_readList (fun p => noOptions_read n p) _) fun _ => True.intro

/-- what is left of such code depends on the values only -/
theorem noOptions_step {m m' : Mem} {p q : Act α} (hr : NoOptions p) (h : p.step m = some (m', q)) : m' = m ∧ NoOptions q := by
  cases p <;> simp only [Act.step, Option.some.injEq, Prod.mk.injEq, reduceCtorEq] at h <;> obtain ⟨rfl, rfl⟩ := h <;>
    first | exact ⟨rfl, hr _⟩ | exact hr.elim

theorem noOptions_run {p : Act α} (hr : NoOptions p) {m m' : Mem} (h : m'.heap = m.heap) : (p.run m').2 = (p.run m).2 := by
  induction p with
  | ret r => rfl
  | read a k ih =>
    have : m'.node a = m.node a := by unfold Mem.node; rw [h]
    simp only [Act.run, this]
    exact ih _ (hr _)
  | readIndex a k ih =>
    have : m'.index a = m.index a := by unfold Mem.index; rw [h]
    simp only [Act.run, this]
    exact ih _ (hr _)
  | _ => exact hr.elim

/-- the progress of code that begins by copying the default options -/
theorem world_options {w w' : World α} (h : World.Steps w w') (hk : ∀ p ∈ w.threads, KeepsValues p) {i : Nat} {k : Opt → Act α}
    (hi : w.threads[i]? = some (.readOptions k)) (hno : ∀ d, NoOptions (k d)) :
    w'.mem.heap = w.mem.heap ∧ (∀ p ∈ w'.threads, KeepsValues p) ∧
      (∀ d, (d = w'.mem.options ∨ ∃ p ∈ w'.threads, MaySet d p) → d = w.mem.options ∨ ∃ p ∈ w.threads, MaySet d p) ∧
      ∃ q, w'.threads[i]? = some q ∧ (q = .readOptions k ∨
        ∃ d, (d = w.mem.options ∨ ∃ p ∈ w.threads, MaySet d p) ∧ NoOptions q ∧ (q.run w.mem).2 = ((k d).run w.mem).2) := by
  induction h with
  | refl => exact ⟨rfl, hk, fun d h => h, _, hi, .inl rfl⟩
  | @snoc x y _ s ih =>
    obtain ⟨hm, hk', hset, q, hq, hcase⟩ := ih
    obtain ⟨j, p, p', m, hp, hs⟩ := s
    have hkp := keepsValues_step (hk' p (List.mem_of_getElem? hp)) hs
    refine ⟨hkp.1.trans hm, fun r hr => ?_, fun d hd => ?_, ?_⟩
    · rcases List.mem_or_eq_of_mem_set hr with h | h
      · exact hk' r h
      · rw [h]; exact hkp.2.1
    · apply hset
      rcases hd with hd | ⟨r, hr, hrd⟩
      · rcases hkp.2.2.2 with h | h
        · exact .inl (hd.trans h)
        · subst hd; exact .inr ⟨p, List.mem_of_getElem? hp, h⟩
      · rcases List.mem_or_eq_of_mem_set hr with h | h
        · exact .inr ⟨r, h, hrd⟩
        · subst h; exact .inr ⟨p, List.mem_of_getElem? hp, hkp.2.2.1 d hrd⟩
    · by_cases hij : j = i
      · subst hij
        rw [hq] at hp
        cases hp
        have hlt : j < x.threads.length := (List.getElem?_eq_some_iff.1 hq).1
        refine ⟨p', List.getElem?_set_self hlt, .inr ?_⟩
        rcases hcase with rfl | ⟨d, hd, hn, hrun⟩
        · cases hs
          exact ⟨_, hset _ (.inl rfl), hno _, rfl⟩
        · have h1 := noOptions_step hn hs
          refine ⟨d, hd, h1.2, ?_⟩
          rw [← hrun]
          have h2 := congrArg Prod.snd (run_step hs)
          rw [noOptions_run h1.2 (show m.heap = w.mem.heap by rw [h1.1]; exact hm), noOptions_run hn hm] at h2
          exact h2
      · exact ⟨q, by rw [show World.threads { mem := m, threads := x.threads.set j p' } = x.threads.set j p' from rfl, List.getElem?_set_ne hij]; exact hq, hcase⟩

/-! ## the functions of the library, run alone -/

theorem keysOf_lookup (k : Bytes) : ∀ kvs : List HEnt, (lookup k (keysOf kvs)).isSome = (hlookup k kvs).isSome
  | [] => rfl
  | e :: es => by
    simp only [keysOf, List.map_cons, lookup, hlookup]
    by_cases h : e.key = k
    · simp [h, Ent.key]
    · have : ¬ (Ent.mk e.key e.id .notExist).key = k := h
      rw [if_neg this, if_neg h]
      exact keysOf_lookup k es

theorem keysOf_fold (E : Env) (kvs : List HEnt) (l : List (Bytes × List Bytes)) :
    (keysOf kvs).foldl (fun m e => lowAdd (E.toLower e.key) e.key m) l = kvs.foldl (fun m e => lowAdd (E.toLower e.key) e.key m) l := by
  unfold keysOf
  rw [List.foldl_map]
  rfl

/-- the memory with another lower case index at an object -/
theorem setIndex_obj {m : Mem} {a : Nat} {n : BitVec 32} {kvs : List HEnt} {low l : Low} (h : m.heap[a]? = some (.obj n kvs low)) :
    m.setIndex a l = { m with heap := m.heap.set a (.obj n kvs l) } := by
  unfold Mem.setIndex; rw [h]; rfl

theorem run_fill (E : Env) {a : Nat} {n : BitVec 32} {kvs : List HEnt} (k : Act α) : ∀ (es : List HEnt) (l : List (Bytes × List Bytes)) (m : Mem),
    m.heap[a]? = some (.obj n kvs (some l)) → (aFillIndex E a es k).run m =
      k.run { m with heap := m.heap.set a (.obj n kvs (some (es.foldl (fun m e => lowAdd (E.toLower e.key) e.key m) l))) }
  | [], l, m, h => by
    have : m.heap.set a (.obj n kvs (some l)) = m.heap := by
      apply List.ext_getElem?
      intro i
      by_cases hi : a = i
      · subst hi; rw [List.getElem?_set_self (List.getElem?_eq_some_iff.1 h).1, h]
      · rw [List.getElem?_set_ne hi]
    simp only [aFillIndex, List.foldl_nil, this]
  | e :: es, l, m, h => by
    have hi : m.index a = some l := by unfold Mem.index; rw [h]; rfl
    simp only [aFillIndex, Act.run, hi]
    rw [setIndex_obj h]
    have hlt := (List.getElem?_eq_some_iff.1 h).1
    rw [run_fill E (n := n) (kvs := kvs) k es (lowAdd (E.toLower e.key) e.key l) _ (by simp [List.getElem?_set_self hlt, addCaseless])]
    simp only [List.set_set, List.foldl_cons]

theorem run_init (E : Env) {a : Nat} {n : BitVec 32} {kvs : List HEnt} {low : Low} (k : Act α) (m : Mem) (h : m.heap[a]? = some (.obj n kvs low)) :
    (aInitCaseless E a kvs k).run m = k.run { m with heap := m.heap.set a (.obj n kvs (some (initCaseless E (keysOf kvs) low))) } := by
  have hi : m.index a = low := by unfold Mem.index; rw [h]; rfl
  cases low with
  | some l =>
    simp only [aInitCaseless, Act.run, hi, initCaseless]
    rw [set_same h]
  | none =>
    simp only [aInitCaseless, Act.run, hi, initCaseless]
    rw [setIndex_obj h]
    have hlt := (List.getElem?_eq_some_iff.1 h).1
    rw [run_fill E (n := n) (kvs := kvs) k kvs [] _ (by simp [List.getElem?_set_self hlt])]
    simp only [List.set_set, keysOf_fold]

/-- what the model of the heap says, as the result of a run -/
def Mem.gives (m : Mem) (r : Heap × R α) : Mem × R α := ({ m with heap := r.1 }, r.2)

theorem run_locate (E : Env) (cl : Bool) (v : Ptr) (p : Param) (m : Mem) : (aLocate E cl v p).run m = m.gives (hlocate E cl m.heap v p) := by
  cases v with
  | none => rfl
  | some a =>
    simp only [aLocate, Act.run, hlocate, Mem.node]
    cases hc : m.heap[a]? with
    | none => rfl
    | some c =>
      cases c with
      | arr xs =>
        simp only [Option.map_some, Cell.plain]
        cases anyToInt p with
        | ok pos =>
          dsimp only
          by_cases hp : posForRead xs.length pos < 0
          · rw [if_pos hp, if_pos hp]; rfl
          · rw [if_neg hp, if_neg hp]
            cases xs[(posForRead xs.length pos).toNat]? <;> rfl
        | _ => rfl
      | obj n kvs low =>
        simp only [Option.map_some, Cell.plain]
        cases anyToString p with
        | ok key =>
          dsimp only
          unfold aFind findKey
          rw [keysOf_lookup]
          cases hl : hlookup key kvs with
          | some e =>
            simp only [Option.isSome_some, if_true, hl, set_same hc]
            rfl
          | none =>
            simp only [Option.isSome_none, Bool.false_eq_true, if_false]
            cases cl with
            | false => simp only [Bool.not_false, if_true, set_same hc]; rfl
            | true =>
              simp only [Bool.not_true, Bool.false_eq_true, if_false]
              rw [run_init E _ m hc]
              have hlt := (List.getElem?_eq_some_iff.1 hc).1
              have hi : Mem.index { m with heap := m.heap.set a (.obj n kvs (some (initCaseless E (keysOf kvs) low))) } a = some (initCaseless E (keysOf kvs) low) := by
                unfold Mem.index
                simp only [List.getElem?_set_self hlt]
                rfl
              simp only [Act.run, hi, Option.getD_some]
              cases lowGet (E.toLower key) (initCaseless E (keysOf kvs) low) with
              | none => rfl
              | some ks =>
                dsimp only
                cases firstPresent (keysOf kvs) ks with
                | none => rfl
                | some k =>
                  dsimp only
                  cases hlookup k kvs <;> rfl
        | _ => rfl
      | _ => rfl

mutual
theorem run_get1 (E : Env) (cl : Bool) (v : Ptr) (m : Mem) : ∀ p, (aGet1 E cl v p).run m = m.gives (hget1 E cl m.heap v p)
  | .slice qs => by
    unfold aGet1 hget1
    by_cases h : qs.isEmpty = true
    · rw [if_pos h, if_pos h]; exact run_locate E cl v _ m
    · rw [if_neg h, if_neg h]; exact run_get E cl v m qs
  | .str s => by unfold aGet1 hget1; exact run_locate E cl v _ m
  | .int s => by unfold aGet1 hget1; exact run_locate E cl v _ m
  | .uint s => by unfold aGet1 hget1; exact run_locate E cl v _ m
  | .nil => by unfold aGet1 hget1; exact run_locate E cl v _ m
  | .other => by unfold aGet1 hget1; exact run_locate E cl v _ m
theorem run_get (E : Env) (cl : Bool) (v : Ptr) (m : Mem) : ∀ ps, (aGet E cl v ps).run m = m.gives (hget E cl m.heap v ps)
  | [] => rfl
  | p :: rest => by
    have h1 := run_get1 E cl v m p
    have h2 := fun c m => run_get E cl c m rest
    unfold aGet hget
    by_cases h : rest.isEmpty = true
    · rw [if_pos h, if_pos h]; exact h1
    · rw [if_neg h, if_neg h]
      by_cases hs : p.isSlice = true
      · rw [if_pos hs, if_pos hs]; rfl
      · rw [if_neg hs, if_neg hs]
        unfold Act.onOk
        rw [run_andThen, run_locate]
        cases hr : hlocate E cl m.heap v p with
        | mk h r =>
          cases r with
          | ok c => exact (h2 c { m with heap := h }).trans rfl
          | _ => rfl
end

theorem run_onOk_ret {p : Act α} {f : α → R β} {m : Mem} {r : R α} (h : p.run m = (m, r)) : (p.onOk fun a => .ret (f a)).run m = (m, r >>= f) := by
  unfold Act.onOk
  rw [run_andThen, h]
  cases r <;> rfl

theorem run_onOk {p : Act α} {f : α → Act β} {m : Mem} {r : R α} {g : α → R β} (h : p.run m = (m, r)) (hf : ∀ a, (f a).run m = (m, g a)) :
    (p.onOk f).run m = (m, r >>= g) := by
  unfold Act.onOk
  rw [run_andThen, h]
  cases r with
  | ok a => exact hf a
  | _ => rfl

/-- the values without their lower case indexes -/
def Mem.plain (m : Mem) : Heap := m.heap.map Cell.plain

theorem run_readList {f : Ptr → Act V} {g : Ptr → R V} {m : Mem} (h : ∀ p, (f p).run m = (m, g p)) : ∀ ps, (aReadList f ps).run m = (m, hreadList g ps)
  | [] => rfl
  | p :: ps => by
    unfold aReadList hreadList
    rw [run_onOk (h p) fun v => run_onOk_ret (f := fun vs => .ok (v :: vs)) (run_readList h ps)]
    cases g p with
    | ok v => cases hreadList g ps <;> rfl
    | _ => rfl

theorem run_read (m : Mem) : ∀ (n : Nat) (v : Ptr), (aRead n v).run m = (m, hread n m.plain v)
  | 0, _ => rfl
  | n + 1, none => rfl
  | n + 1, some a => by
    have ih := run_read m n
    have hn : m.plain[a]? = m.node a := by unfold Mem.plain Mem.node; rw [List.getElem?_map]
    simp only [aRead, Act.run, hread, hn]
    cases m.node a with
    | none => rfl
    | some c =>
      cases c with
      | arr xs =>
        dsimp only
        rw [run_onOk_ret (f := fun vs => .ok (V.arr vs)) (run_readList ih xs)]
        cases hreadList (hread n m.plain) xs <;> rfl
      | obj k kvs low =>
        dsimp only
        rw [run_onOk_ret (f := fun vs => .ok (V.obj k (entsOf kvs vs) low)) (run_readList ih _)]
        cases hreadList (hread n m.plain) (kvs.map HEnt.v) <;> rfl
      | _ => rfl

theorem run_marshal (E : Env) (S : SortFn) (n : Nat) (v : Ptr) (opts : List MOpt) (m : Mem) :
    (aMarshal E S n v opts).run m = (m, hmarshal E S m.options n m.plain v opts) := by
  simp only [aMarshal, Act.run]
  rw [run_onOk_ret (f := fun t => marshal E S m.options t opts) (run_read m n v)]
  unfold hmarshal
  cases hread n m.plain v <;> rfl

theorem run_equal (D : DecFn) (n : Nat) (v w : Ptr) (m : Mem) :
    (aEqual D n v w).run m = (m, hread n m.plain v >>= fun t => hread n m.plain w >>= fun u => .ok (equal D t u)) := by
  unfold aEqual
  rw [run_onOk (run_read m n v) fun t => run_onOk_ret (f := fun u => .ok (equal D t u)) (run_read m n w)]

/-- the loop of the Range functions on the results of the callback -/
def loopOn (g : α → Ptr → R Bool) : List (α × Ptr) → R Unit
  | [] => .ok ()
  | (k, c) :: l => g k c >>= fun go => if go then loopOn g l else .ok ()

theorem run_each {f : α → Ptr → Act Bool} {m : Mem} (hf : ∀ k c, ((f k c).run m).1 = m) : ∀ l, (aEach f l).run m = (m, loopOn (fun k c => ((f k c).run m).2) l)
  | [] => rfl
  | (k, c) :: l => by
    unfold aEach loopOn
    refine run_onOk (Prod.ext (hf k c) rfl) fun go => ?_
    cases go
    · rfl
    · exact run_each hf l

theorem run_rangeArray {f : Nat → Ptr → Act Bool} {m : Mem} {a : Nat} {xs : List Ptr} (ha : m.node a = some (.arr xs)) (hf : ∀ k c, ((f k c).run m).1 = m) :
    (aRangeArray (some a) f).run m = (m, loopOn (fun k c => ((f k c).run m).2) ((List.range xs.length).zip xs)) := by
  unfold aRangeArray
  simp only [aLook, Act.onOk, Act.andThen, Act.run, ha]
  exact run_each hf _

theorem run_rangeObjects {f : Bytes → Ptr → Act Bool} {m : Mem} {a n : Nat} {kvs : List HEnt} {low : Low} {order : List HEnt → List HEnt}
    (ha : m.node a = some (.obj n kvs low)) (hf : ∀ k c, ((f k c).run m).1 = m) :
    (aRangeObjects order (some a) f).run m = (m, loopOn (fun k c => ((f k c).run m).2) ((order kvs).map fun e => (e.key, e.v))) := by
  unfold aRangeObjects
  simp only [aLook, Act.onOk, Act.andThen, Act.run, ha]
  exact run_each hf _

theorem loopOn_all {g : α → Ptr → R Bool} : ∀ {l : List (α × Ptr)}, (∀ x ∈ l, g x.1 x.2 = .ok true) → loopOn g l = .ok ()
  | [], _ => rfl
  | (k, c) :: l, h => by
    have h1 : g k c = .ok true := h (k, c) (by simp)
    rw [loopOn, h1]
    exact loopOn_all (l := l) fun x hx => h x (by simp [hx])

theorem loopOn_stop {g : α → Ptr → R Bool} : ∀ {l1 l2 : List (α × Ptr)} {k : α} {c : Ptr}, (∀ x ∈ l1, g x.1 x.2 = .ok true) → g k c ≠ .ok true →
    loopOn g (l1 ++ (k, c) :: l2) = loopEnd (g k c)
  | [], l2, k, c, _, h2 => by
    rw [List.nil_append, loopOn]
    cases hg : g k c with
    | ok b => cases b with
      | true => exact absurd hg h2
      | false => rfl
    | _ => rfl
  | (k', c') :: l1, l2, k, c, h1, h2 => by
    have h3 : g k' c' = .ok true := h1 (k', c') (by simp)
    rw [List.cons_append, loopOn, h3]
    exact loopOn_stop (l1 := l1) (fun x hx => h1 x (by simp [hx])) h2

/-! ## schedules -/

/-- the interleaving in which the goroutines step in this order -/
def World.exec (w : World α) : List Nat → Option (World α)
  | [] => some w
  | i :: l => match w.threads[i]? with
    | none => none
    | some p => match p.step w.mem with
      | none => none
      | some (m, q) => World.exec { mem := m, threads := w.threads.set i q } l

theorem exec_steps {w0 : World α} : ∀ (l : List Nat) {w w' : World α}, World.Steps w0 w → w.exec l = some w' → World.Steps w0 w'
  | [], w, w', h, he => by cases he; exact h
  | i :: l, w, w', h, he => by
    simp only [World.exec] at he
    cases hp : w.threads[i]? with
    | none => rw [hp] at he; cases he
    | some p =>
      rw [hp] at he
      cases hs : p.step w.mem with
      | none => simp only [hs] at he; cases he
      | some x => simp only [hs] at he; exact exec_steps l (h.snoc (.go w i p x.2 x.1 hp hs)) he

/-- the result of a goroutine that has finished -/
def World.result (w : World α) (i : Nat) : Option (R α) := match w.threads[i]? with
  | some (.ret r) => some r
  | _ => none

theorem result_some {w : World α} {i : Nat} {r : R α} (h : w.result i = some r) : w.threads[i]? = some (.ret r) := by
  unfold World.result at h
  cases hp : w.threads[i]? with
  | none => rw [hp] at h; cases h
  | some p =>
    rw [hp] at h
    cases p <;> first | (cases h; rfl) | cases h

end JV
