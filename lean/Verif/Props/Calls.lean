import Verif.Proofs.Calls
import Verif.Props.Modify
/-!
C69: which calls panic.
-/
namespace JV
open Spec

/-- On a value made by public calls without a nil pointer inside, with values of that kind as arguments, a call panics exactly if it converts
a blank string to a number, whatever its parameters, options and callbacks; every other call comes back. -/
theorem C69_panics_iff {σ : Type} (E : Env) (S : SortFn) (D : DecFn) (d : Opt) (v : V) (c : Call σ) (hv : Usable E v) (hc : ArgsBuilt E c) :
    ((c.run E S D d v).2 = .panic ↔ ConvertsBlank E v c) ∧ (c.run E S D d v).2 ≠ .diverge := by
  have hn := hv.2
  have hk := usable_keys hv
  have h0 : v ≠ .nilp := fun h => hn [] (h ▸ rfl)
  have ret : ∀ {r : R Unit} {P : Prop}, ¬ P → r.returns → (r = .panic ↔ P) ∧ r ≠ .diverge := fun {r P} hP hr => by
    cases r with
    | ok _ => exact ⟨⟨nofun, fun h => absurd h hP⟩, nofun⟩
    | err _ => exact ⟨⟨nofun, fun h => absurd h hP⟩, nofun⟩
    | panic => exact hr.elim
    | diverge => exact hr.elim
  have hm : ∀ opts, ∃ b e, marshal E S d v opts = .ok (b, e) := fun opts => call_marshal_returns hk hn
  cases c with
  | get cl p ps => exact ret id (done_returns.2 (getC_returns cl (by simp) hn))
  | mustGet p ps => exact ret id (done_returns.2 (mustGet_returns (by simp) hn))
  | getNum k cl p ps => exact getNum_iff k cl (by simp) hn
  | getOther k cl p ps => exact ret id (getOther_returns k cl (by simp) hn)
  | len => exact ret id (done_returns.2 (by cases v <;> first | exact absurd rfl h0 | trivial))
  | pred k => exact ret id (done_returns.2 (by cases v <;> first | exact absurd rfl h0 | (cases k <;> trivial)))
  | num k => exact num_iff k h0
  | bool => exact ret id (done_returns.2 (by cases v <;> first | exact absurd rfl h0 | trivial))
  | bytes =>
    refine ret id (done_returns.2 ?_)
    cases v with
    | nilp => exact absurd rfl h0
    | str s => simp only [bytes]; cases b64Decode s <;> trivial
    | _ => trivial
  | string =>
    obtain ⟨t, h, -⟩ := describe_ok E v
    exact ret id (done_returns.2 (call_returns_ok h))
  | valueType => exact ret id (done_returns.2 (by cases v <;> first | exact absurd rfl h0 | trivial))
  | set ch p ps => exact ret id (done_returns.2 (set_returns (by simp)))
  | insert after ch p ps => exact ret id (done_returns.2 (insert_returns after (by simp) hn))
  | append beg ch ps => exact ret id (done_returns.2 (append_returns beg hn))
  | delete cl p ps => exact ret id (done_returns.2 (deleteAt_returns cl _ v [] (by simp) hn))
  | rangeObjects cb s => exact ret id (done_returns.2 (by cases v <;> first | exact absurd rfl h0 | (cases cb <;> trivial)))
  | rangeBySet cb s => exact ret id (done_returns.2 (by cases v <;> first | exact absurd rfl h0 | (cases cb <;> trivial)))
  | rangeArray cb s => exact ret id (done_returns.2 (by cases v <;> first | exact absurd rfl h0 | (cases cb <;> trivial)))
  | forRangeObj => exact ret id (done_returns.2 (by cases v <;> first | exact absurd rfl h0 | trivial))
  | forRangeArr => exact ret id (done_returns.2 (by cases v <;> first | exact absurd rfl h0 | trivial))
  | iterArray => exact ret id (done_returns.2 (by cases v <;> first | exact absurd rfl h0 | trivial))
  | iterObjects order => exact ret id (done_returns.2 (by cases v <;> first | exact absurd rfl h0 | trivial))
  | sortArray less =>
    have : ∃ w, sortArray S v less = .ok w := by
      cases less with
      | none => exact ⟨_, rfl⟩
      | some f => cases v <;> first | exact absurd rfl h0 | exact ⟨_, rfl⟩
    obtain ⟨w, h⟩ := this
    refine ret id ?_
    simp only [Call.run, h]
    trivial
  | marshal opts => obtain ⟨b, e, h⟩ := hm opts; exact ret id (done_returns.2 (call_returns_ok h))
  | marshalString opts =>
    obtain ⟨b, e, h⟩ := hm opts
    exact ret id (done_returns.2 (by unfold marshalString; rw [h]; cases e <;> trivial))
  | mustMarshal opts =>
    obtain ⟨b, e, h⟩ := hm opts
    exact ret id (done_returns.2 (by unfold mustMarshal; rw [h]; trivial))
  | exportAny dec =>
    obtain ⟨b, e, h⟩ := hm []
    refine ret id (done_returns.2 ?_)
    unfold exportAny; rw [h]
    cases e with
    | none => simp only; cases dec b <;> trivial
    | some e => trivial
  | exportV valid dst =>
    obtain ⟨b, e, h⟩ := hm []
    refine ret id (done_returns.2 ?_)
    unfold exportV; rw [h]
    cases e with
    | some e => trivial
    | none =>
      simp only
      split
      · unfold unmarshalJSON
        obtain ⟨w, e', hw, hw'⟩ := C01_unmarshal_total E b
        rw [hw]
        simp only [R.bind_ok]
        cases e' with
        | some e' => trivial
        | none =>
          have := (hw' rfl).1
          cases dst <;> first | exact absurd rfl hc | (cases w <;> first | exact absurd rfl this | trivial)
      · trivial
  | equal w => exact ret id trivial
  | cmp k w =>
    refine ret id (done_returns.2 ?_)
    have h1 : (greaterThan' D v w).returns ∧ (greaterOrEqualThan' D v w).returns := by
      cases v <;> first | exact absurd rfl h0 | (cases w <;> first | exact absurd rfl hc | exact ⟨trivial, trivial⟩ | (refine ⟨trivial, ?_⟩; simp only [greaterOrEqualThan']; split <;> trivial))
    have bnd : ∀ {r : R (Bool × Bool)} {f : Bool × Bool → R Bool}, (∀ x, (f x).returns) → r.returns → (r >>= f).returns := fun {r f} hf hr => by
      cases r <;> first | exact hf _ | exact hr
    cases k
    · exact bnd (fun _ => trivial) h1.1
    · exact bnd (fun _ => trivial) h1.2
    · exact bnd (fun x => by cases x.2 <;> trivial) h1.2
    · exact bnd (fun x => by cases x.2 <;> trivial) h1.1
  | contains sub path => exact ret id (done_returns.2 (containsAt_returns path hk hn (usable_keys hc) hc.2))

/-- Such a value stays one, whatever is called. -/
theorem C69_stays {σ : Type} (E : Env) (S : SortFn) (D : DecFn) (d : Opt) (v : V) (c : Call σ) (hv : Usable E v) (hc : ArgsBuilt E c) : Usable E (c.run E S D d v).1 := by
  have hP := (closed_good E).and (closed_notNil E)
  have hh := usable_her hv
  cases c with
  | get cl p ps => exact usable_of (.read cl v _ hv.1) (her_getC hP cl _ hh)
  | getNum k cl p ps => exact usable_of (.read cl v _ hv.1) (her_getC hP cl _ hh)
  | getOther k cl p ps => exact usable_of (.read cl v _ hv.1) (her_getC hP cl _ hh)
  | set ch p ps => exact usable_of (.set v ch _ hv.1 hc.1) (her_set hP _ hh (usable_her hc))
  | insert after ch p ps => exact usable_of (.insert after v ch _ hv.1 hc.1) (her_insert hP after _ hh (usable_her hc))
  | append beg ch ps => exact usable_of (.append beg v ch _ hv.1 hc.1) (her_append hP beg _ hh (usable_her hc))
  | delete cl p ps => exact usable_of (.delete cl v _ hv.1) (her_delete hP (fun n kvs low h => h.1.1) cl _ hh)
  | sortArray less =>
    simp only [Call.run]
    cases h : sortArray S v less with
    | ok w => exact usable_of (.sort S v less w hv.1 h) (her_sort hP h hh)
    | _ => exact hv
  | _ => exact hv

/-- Any program of calls on one value: the outcomes are those of the calls, in order; if a call panics it is a conversion to a number, and
otherwise all calls of the program come back. -/
theorem C69_programs {σ : Type} (E : Env) (S : SortFn) (D : DecFn) (d : Opt) : ∀ (cs : List (Call σ)) (v : V), Usable E v → (∀ c ∈ cs, ArgsBuilt E c) →
    Usable E (Call.runs E S D d v cs).1 ∧
    (∀ i : Nat, (Call.runs E S D d v cs).2[i]? = some R.panic → ∃ c : Call σ, cs[i]? = some c ∧ IsConv c) ∧ R.diverge ∉ (Call.runs E S D d v cs).2 ∧
    ((∀ c ∈ cs, ¬ IsConv c) → (Call.runs E S D d v cs).2.length = cs.length)
  | [], v, hv, _ => ⟨hv, by simp [Call.runs], by simp [Call.runs], fun _ => rfl⟩
  | c :: cs, v, hv, hc => by
    have h1 := C69_panics_iff E S D d v c hv (hc c (by simp))
    have h2 := C69_stays E S D d v c hv (hc c (by simp))
    obtain ⟨i1, i2, i3, i4⟩ := C69_programs E S D d cs (c.run E S D d v).1 h2 fun c' h' => hc c' (by simp [h'])
    have step : ∀ r, (c.run E S D d v).2 = r → r.returns → Call.runs E S D d v (c :: cs) =
        ((Call.runs E S D d (c.run E S D d v).1 cs).1, r :: (Call.runs E S D d (c.run E S D d v).1 cs).2) := fun r hr hrr => by
      rw [Call.runs]
      rw [show c.run E S D d v = ((c.run E S D d v).1, r) from Prod.ext rfl hr]
      cases r with
      | ok _ => rfl
      | err _ => rfl
      | panic => exact hrr.elim
      | diverge => exact hrr.elim
    have fin : ∀ r, (c.run E S D d v).2 = r → r.returns → r ≠ .panic → r ≠ .diverge →
        Usable E (Call.runs E S D d v (c :: cs)).1 ∧
        (∀ i : Nat, (Call.runs E S D d v (c :: cs)).2[i]? = some R.panic → ∃ c', (c :: cs)[i]? = some c' ∧ IsConv c') ∧ R.diverge ∉ (Call.runs E S D d v (c :: cs)).2 ∧
        ((∀ c' ∈ c :: cs, ¬ IsConv c') → (Call.runs E S D d v (c :: cs)).2.length = (c :: cs).length) := fun r hr hrr hp hd => by
      have hs := step r hr hrr
      rw [hs]
      refine ⟨i1, fun i hi => ?_, fun hm => ?_, fun hno => ?_⟩
      · cases i with
        | zero => simp at hi; exact absurd hi hp
        | succ i => simpa using i2 i (by simpa using hi)
      · rcases List.mem_cons.1 hm with hm | hm
        · exact hd hm.symm
        · exact i3 hm
      · simp [i4 fun c' h' => hno c' (by simp [h'])]
    cases hr : (c.run E S D d v).2 with
    | ok u => exact fin _ hr trivial nofun nofun
    | err e => exact fin _ hr trivial nofun nofun
    | diverge => exact absurd hr h1.2
    | panic =>
      have hb := h1.1.1 hr
      have hic : IsConv c := by cases c <;> first | trivial | exact hb.elim
      have hs : Call.runs E S D d v (c :: cs) = ((c.run E S D d v).1, [.panic]) := by
        rw [Call.runs, show c.run E S D d v = ((c.run E S D d v).1, .panic) from Prod.ext rfl hr]
      rw [hs]
      refine ⟨h2, fun i hi => ?_, by simp, fun hno => absurd hic (hno c (by simp))⟩
      cases i with
      | zero => exact ⟨c, rfl, hic⟩
      | succ i => simp at hi

/-- On a nil `*V` exactly the following calls come back: String, Set, After, InTheBeginning, Before with a child that could not be made, SortArray
without a function, Equal and Contains. All others panic. -/
theorem C69_nil_receiver {σ : Type} (E : Env) (S : SortFn) (D : DecFn) (d : Opt) (c : Call σ) (hp : PlainArgs c) :
    ((c.run E S D d .nilp).2 = .panic ↔ ¬ NilOK c) ∧ ((c.run E S D d .nilp).2 ≠ .panic → (c.run E S D d .nilp).2.returns) := by
  have pan : ∀ {r : R Unit} {P : Prop}, ¬ P → r = .panic → (r = .panic ↔ ¬ P) ∧ (r ≠ .panic → r.returns) := fun hP hr =>
    ⟨⟨fun _ => hP, fun _ => hr⟩, fun h => absurd hr h⟩
  have ret : ∀ {r : R Unit} {P : Prop}, P → r.returns → (r = .panic ↔ ¬ P) ∧ (r ≠ .panic → r.returns) := fun {r P} hP hr =>
    ⟨⟨fun h => by rw [h] at hr; exact hr.elim, fun h => absurd hP h⟩, fun _ => hr⟩
  have res : ∀ cl p ps, Plain (p :: ps) → (resolve E cl .nilp (p :: ps)) = (.nilp, .panic) := fun cl p ps h => by
    have h1 := h p (by simp)
    cases ps with
    | nil => rw [resolve_one]; cases p <;> first | (cases h1; done) | rfl
    | cons q qs => rw [resolve_cons _ _ _ _ _ _ h1]; rfl
  have get : ∀ cl p ps, Plain (p :: ps) → (getC E cl .nilp (p :: ps)).2 = .panic := fun cl p ps h => by unfold getC; rw [res cl p ps h]; rfl
  have typed : ∀ {α : Type} {zero : α} {conv : V → Ret α} cl p ps, Plain (p :: ps) → (typedGet E cl zero conv .nilp (p :: ps)).done = .panic := fun cl p ps h => by
    unfold typedGet; rw [get cl p ps h]; rfl
  cases c with
  | get cl p ps => exact pan id (by simp only [Call.run]; rw [get cl p ps hp]; rfl)
  | mustGet p ps => exact pan id (by simp only [Call.run, mustGet, JV.get]; rw [get false p ps hp]; rfl)
  | getNum k cl p ps => exact pan id (by cases k <;> exact typed cl p ps hp)
  | getOther k cl p ps => exact pan id (by cases k <;> exact typed cl p ps hp)
  | pred k => exact pan id (by cases k <;> rfl)
  | num k => exact pan id (by cases k <;> rfl)
  | string => exact ret trivial trivial
  | set ch p ps => exact ret trivial (done_returns.2 (set_returns (by simp)))
  | insert after ch p ps =>
    have hi := insertAt_nil (E := E) after ch.c (p :: ps) [] hp (by simp)
    cases he : ch.err with
    | some e => exact ret (.inr (by simp [he])) (by simp only [Call.run, insert, he]; trivial)
    | none =>
      cases after with
      | true => exact ret (.inl rfl) (by simp only [Call.run, insert, he]; rw [hi]; trivial)
      | false => exact pan (by simp [NilOK, he]) (by simp only [Call.run, insert, he]; rw [hi]; rfl)
  | append beg ch ps =>
    have hi : (appendAt E beg .nilp ch.c ps).2 = if beg then .err .valueUninitialized else .panic := by
      cases ps <;> (unfold appendAt; cases beg <;> rfl)
    cases beg with
    | true => exact ret rfl (by simp only [Call.run, append]; rw [hi]; trivial)
    | false => exact pan nofun (by simp only [Call.run, append]; rw [hi]; rfl)
  | delete cl p ps => exact pan id (by simp only [Call.run, delete]; rw [deleteAt_nil cl (p :: ps) [] hp (by simp) res]; rfl)
  | rangeObjects cb s => exact pan id rfl
  | sortArray less =>
    cases less with
    | none => exact ret rfl trivial
    | some f => exact pan nofun rfl
  | equal w => exact ret trivial trivial
  | cmp k w => exact pan id (by cases k <;> rfl)
  | contains sub path => exact ret trivial trivial
  | _ => exact pan id rfl

/-- UnmarshalJSON on a nil `*V` panics exactly if the text is accepted. -/
theorem C69_nil_unmarshalJSON (E : Env) (b : Bytes) :
    (unmarshalJSON E .nilp b = .panic ↔ ∃ w, goUnmarshal E b = .ok (b, w, none)) ∧ ∀ w e, goUnmarshal E b = .ok (b, w, some e) → unmarshalJSON E .nilp b = .ok (.nilp, some e) := by
  rcases C45_unmarshalJSON E .null (by simp) b with ⟨w, h1, -⟩ | ⟨w, e, h1, -⟩
  · refine ⟨⟨fun _ => ⟨w, h1⟩, fun _ => ?_⟩, fun w' e' h => ?_⟩
    · simp only [unmarshalJSON, h1, R.bind_ok]
    · rw [h1] at h; cases h
  · refine ⟨⟨fun h => ?_, fun ⟨w', h⟩ => ?_⟩, fun w' e' h => ?_⟩
    · simp only [unmarshalJSON, h1, R.bind_ok] at h
      cases h
    · rw [h1] at h; cases h
    · rw [h1] at h
      cases h
      simp only [unmarshalJSON, h1, R.bind_ok]
      rfl

/-- Append takes a nil child (insert_append_delete.go:311-327 takes any `*V`), and Marshal of the array panics then: without the restriction on nil
pointers the claim fails. -/
theorem C69_nil_child : ∃ (E : Env) (S : SortFn) (D : DecFn) (d : Opt) (v : V) (c : Call Unit), Built E Any v ∧ v ≠ .nilp ∧ ArgsBuilt E c ∧ ¬ IsConv c ∧ (c.run E S D d v).2 = .panic :=
  ⟨sampleEnv, insertionSort, fun _ => none, emptyOptions, (append sampleEnv false newArray { c := .nilp } []).1, .marshal [],
    .append _ _ { c := .nilp } _ .array (.scalar _ trivial trivial), by decide +kernel, trivial, id, by decide +kernel⟩

-- a program of which the fourth call panics: GetInt of "" where String, Get, Set came back; without it all come back
example : (Call.runs (σ := Unit) sampleEnv insertionSort (fun _ => none) emptyOptions newObject
    [.string, .get false (.str (asc "a")) [], .set { c := .str [] } (.str (asc "a")) [.int 0], .getNum .int64 true (.str (asc "A")) [.int 0], .len]).2 =
      [.ok (), .err .notFound, .ok (), .panic] := by decide +kernel
example : (Call.runs (σ := Unit) sampleEnv insertionSort (fun _ => none) emptyOptions newObject
    [.string, .get false (.str (asc "a")) [], .set { c := .str [] } (.str (asc "a")) [.int 0], .num .int64, .insert true { c := .null } (.str (asc "a")) [.int 0], .delete true (.str (asc "A")) [],
      .marshal []]).2 = [.ok (), .err .notFound, .ok (), .ok (), .ok (), .ok (), .ok ()] := by decide +kernel
example : ArgsBuilt (σ := Unit) sampleEnv (.set { c := .str [] } (.str (asc "a")) [.int 0]) :=
  built_usable (.scalar _ trivial nofun)
example : Usable sampleEnv newObject := built_usable .object
example : ConvertsBlank (σ := Unit) sampleEnv (.arr [.str []]) (.getNum .int64 false (.int 0) []) := ⟨[], by decide +kernel, by decide +kernel⟩
example : NilOK (σ := Unit) (.set { c := .null } .other []) ∧ ¬ NilOK (σ := Unit) .len ∧ PlainArgs (σ := Unit) (.set { c := .null } .other []) :=
  ⟨trivial, id, by intro p hp; simp at hp; subst hp; rfl⟩

end JV
