import Verif.Spec.OptionAlias
/-! Options that hold references are read as options that hold contents. -/
namespace JV
open Spec

theorem read_merge (mem : SeqMem) (h : HOpt) (o : RefOpt) : (o.mergeTo h).read mem = (optNow mem o).mergeTo (h.read mem) := by
  obtain ⟨o', s⟩ := h
  cases o with
  | plain m =>
    cases s with
    | none =>
      have : (if m.setsSeq then none else (none : Option Nat)) = none := by split <;> rfl
      simp [RefOpt.mergeTo, optNow, HOpt.read, this]
    | some r =>
      cases m with
      | less f => cases f <;> rfl
      | _ => rfl
  | keySeq r => cases s <;> rfl
  | opt => cases s <;> rfl

theorem read_foldl (mem : SeqMem) : ∀ (os : List RefOpt) (h : HOpt), (os.foldl RefOpt.mergeTo h).read mem = (os.map (optNow mem)).foldl MOpt.mergeTo (h.read mem)
  | [], _ => rfl
  | o :: os, h => by rw [List.foldl_cons, read_foldl mem os, read_merge]; rfl

theorem read_combine (mem : SeqMem) (os : List RefOpt) (h : HOpt) : (h.combineFrom os).read mem = (h.read mem).combineFrom (os.map (optNow mem)) := by
  have e := read_foldl mem os h
  unfold HOpt.combineFrom Opt.combineFrom
  rw [← e]
  cases hs : (os.foldl RefOpt.mergeTo h).seq with
  | none => simp [HOpt.read, hs]
  | some r => simp [HOpt.read, hs]

theorem marshalRef_eq (E : Env) (S : SortFn) (mem : SeqMem) (d : HOpt) (v : V) (os : List RefOpt) :
    marshalRef E S mem d v os = marshal E S (d.read mem) v (os.map (optNow mem)) := by
  unfold marshalRef marshal combineOptions
  rw [read_combine]
  cases v <;> rfl

theorem optRun_late (E : Env) (S : SortFn) : ∀ (cs : List OptCall) (mem : SeqMem) (made : List RefOpt) (d : HOpt) (ds : Option (List RefOpt)),
    (∀ mem, d.read mem = defaultNow mem ds) →
    optRun E S ⟨mem, made, d⟩ cs = optLate E S mem made ds cs
  | [], _, _, _, _, _ => rfl
  | .make o :: cs, mem, made, d, ds, h => by simp only [optRun, optLate]; exact optRun_late E S cs _ _ _ _ h
  | .write r i s :: cs, mem, made, d, ds, h => by simp only [optRun, optLate]; exact optRun_late E S cs _ _ _ _ h
  | .setDefault os :: cs, mem, made, d, ds, h => by
    simp only [optRun, optLate]
    exact optRun_late E S cs _ _ _ _ fun mem => by rw [read_combine]; rfl
  | .reset :: cs, mem, made, d, ds, h => by
    simp only [optRun, optLate]
    exact optRun_late E S cs _ _ _ _ fun mem => rfl
  | .marshal v os :: cs, mem, made, d, ds, h => by
    simp only [optRun, optLate]
    rw [marshalRef_eq, h mem, optRun_late E S cs _ _ _ _ h]

/-- the slice an `Opt` in memory holds is among these -/
def SeqIn (used : List Nat) (h : HOpt) : Prop := ∀ r, h.seq = some r → r ∈ used

theorem seqIn_merge {used : List Nat} {h : HOpt} {o : RefOpt} (h1 : SeqIn used h) (h2 : ∀ r ∈ optSlices o, r ∈ used) : SeqIn used (o.mergeTo h) := by
  cases o with
  | plain m =>
    intro r hr
    simp only [RefOpt.mergeTo] at hr
    split at hr
    · cases hr
    · exact h1 r hr
  | keySeq r => intro r' hr; cases hr; exact h2 _ (by simp [optSlices])
  | opt => intro r' hr; cases hr; exact h2 _ (by simp [optSlices])

theorem seqIn_foldl {used : List Nat} : ∀ (os : List RefOpt) {h : HOpt}, SeqIn used h → (∀ o ∈ os, ∀ r ∈ optSlices o, r ∈ used) →
    SeqIn used (os.foldl RefOpt.mergeTo h)
  | [], _, h1, _ => h1
  | o :: os, _, h1, h2 => seqIn_foldl os (seqIn_merge h1 (h2 o (by simp))) fun o ho => h2 o (by simp [ho])

theorem optNow_write {mem : SeqMem} {r i : Nat} {s : Bytes} {o : RefOpt} (h : r ∉ optSlices o) : optNow (mem.write r i s) o = optNow mem o := by
  have key : ∀ j, j ≠ r → (mem.write r i s).getD j [] = mem.getD j [] := by
    intro j hj
    simp only [SeqMem.write, List.getD]
    rw [List.getElem?_set_ne (Ne.symm hj)]
  cases o with
  | plain => rfl
  | keySeq j => simp only [optNow]; rw [key j]; rintro rfl; exact h (by simp [optSlices])
  | opt _ _ j => simp only [optNow]; rw [key j]; rintro rfl; exact h (by simp [optSlices])

theorem read_write {mem : SeqMem} {r i : Nat} {s : Bytes} {h : HOpt} (hr : h.seq ≠ some r) : h.read (mem.write r i s) = h.read mem := by
  unfold HOpt.read
  cases hs : h.seq with
  | none => rfl
  | some j =>
    have hj : j ≠ r := by rintro rfl; exact hr hs
    simp only [SeqMem.write, List.getD]
    rw [List.getElem?_set_ne (Ne.symm hj)]

theorem pick_map {α β : Type} (f : α → β) (l : List α) (os : List Nat) : pick (l.map f) os = (pick l os).map f := by
  induction os with
  | nil => rfl
  | cons i os ih =>
    simp only [pick, List.filterMap_cons, List.getElem?_map] at ih ⊢
    cases l[i]? with
    | none => exact ih
    | some x => simp [ih]

theorem pick_mem {α : Type} {l : List α} {os : List Nat} {x : α} (h : x ∈ pick l os) : x ∈ l := by
  obtain ⟨i, -, hi⟩ := List.mem_filterMap.1 h
  exact List.mem_of_getElem? hi

theorem optRun_expect (E : Env) (S : SortFn) : ∀ (cs : List OptCall) (mem : SeqMem) (made : List RefOpt) (d : HOpt) (used : List Nat),
    SeqIn used d → (∀ o ∈ made, ∀ r ∈ optSlices o, r ∈ used) → HandsOff used cs →
    optRun E S ⟨mem, made, d⟩ cs = optExpect E S mem (made.map (optNow mem)) (d.read mem) cs
  | [], _, _, _, _, _, _, _ => rfl
  | .make o :: cs, mem, made, d, used, h1, h2, h3 => by
    simp only [optRun, optExpect]
    rw [optRun_expect E S cs mem (made ++ [o]) d (optSlices o ++ used) (fun r hr => by simp [h1 r hr]) ?_ h3, List.map_append]
    · rfl
    · intro p hp r hr
      rcases List.mem_append.1 hp with hp | hp
      · simp [h2 p hp r hr]
      · simp only [List.mem_singleton] at hp; subst hp; simp [hr]
  | .write r i s :: cs, mem, made, d, used, h1, h2, h3 => by
    simp only [optRun, optExpect]
    obtain ⟨hr, h3⟩ := h3
    rw [optRun_expect E S cs _ made d used h1 h2 h3, read_write fun hs => hr (h1 r hs)]
    congr 1
    exact List.map_congr_left fun o ho => optNow_write fun h => hr (h2 o ho r h)
  | .setDefault os :: cs, mem, made, d, used, h1, h2, h3 => by
    simp only [optRun, optExpect]
    rw [optRun_expect E S cs mem made _ used ?_ h2 h3, read_combine, pick_map]
    · rfl
    · exact seqIn_foldl _ (fun _ h => by cases h) fun o ho => h2 o (pick_mem ho)
  | .reset :: cs, mem, made, d, used, h1, h2, h3 => by
    simp only [optRun, optExpect]
    rw [optRun_expect E S cs mem made _ used (fun _ h => by cases h) h2 h3]
    rfl
  | .marshal v os :: cs, mem, made, d, used, h1, h2, h3 => by
    simp only [optRun, optExpect]
    rw [optRun_expect E S cs mem made d used h1 h2 h3, marshalRef_eq, pick_map]

end JV
