import Verif.Model.Copies
import Verif.Proofs.Caseless
import Verif.Proofs.RangeMut
import Verif.Proofs.CompareWork
/-! Variables copied by assignment. -/
namespace JV
open Spec

/-- the members as a function -/
def memb (kvs : List Ent) : Bytes → Option V := fun k => (lookup k kvs).map Ent.v

/-- the world of a state -/
def ObjMem.world (s : ObjMem) : World := { fams := s.maps.map memb, vars := s.vars.map ObjVar.map }

/-- an index that has every key under its lower-case form; it may have too many or too few -/
def SoundLow (E : Env) (m : List (Bytes × List Bytes)) : Prop := (m.map Prod.fst).Nodup ∧ ∀ l k, LowIn m l k → E.toLower k = l

structure ObjOk (E : Env) (s : ObjMem) : Prop where
  bound : ∀ h ∈ s.vars, h.map < s.maps.length ∧ ∀ l, h.low = some l → l < s.lows.length
  maps : ∀ kvs ∈ s.maps, (keys kvs).Nodup
  lows : ∀ m ∈ s.lows, SoundLow E m

theorem memb_isSome {kvs : List Ent} {k : Bytes} : (memb kvs k).isSome = true ↔ k ∈ keys kvs := by
  rw [memb, Option.isSome_map, lookup_isSome]

theorem memb_none {kvs : List Ent} {k : Bytes} : memb kvs k = none ↔ k ∉ keys kvs := by
  rw [← memb_isSome]
  cases memb kvs k <;> simp

theorem memb_assign (k : Bytes) (i : BitVec 32) (c : V) (kvs : List Ent) : memb (assign ⟨k, i, c⟩ kvs) = upd (memb kvs) k (some c) := by
  funext k'
  simp only [memb, upd, lookup_assign]
  by_cases h : k = k'
  · subst h; simp
  · simp [h, Ne.symm h]

theorem memb_erase (k : Bytes) {kvs : List Ent} (hn : (keys kvs).Nodup) : memb (erase k kvs) = upd (memb kvs) k none := by
  funext k'
  simp only [memb, upd, lookup_erase _ _ _ hn]
  by_cases h : k = k'
  · subst h; simp
  · simp [h, Ne.symm h]

theorem memb_putKey {k : Bytes} {c : V} {kvs : List Ent} (hk : (lookup k kvs).isSome) : memb (putKey k c kvs) = upd (memb kvs) k (some c) := by
  funext k'
  simp only [memb, upd, lookup_putKey]
  by_cases h : k = k'
  · subst h
    obtain ⟨e, he⟩ := Option.isSome_iff_exists.1 hk
    simp [he]
  · simp [h, Ne.symm h]

theorem soundLow_add {E : Env} {m} (k : Bytes) (h : SoundLow E m) : SoundLow E (lowAdd (E.toLower k) k m) := by
  refine ⟨lowAdd_nodup h.1, fun l k' hk => ?_⟩
  rw [lowIn_add] at hk
  rcases hk with hk | ⟨rfl, rfl⟩
  · exact h.2 _ _ hk
  · rfl

theorem soundLow_del {E : Env} {m} (l k : Bytes) (h : SoundLow E m) : SoundLow E (lowDel l k m) :=
  ⟨h.1.sublist (lowDel_sub _ _ _), fun l' k' hk => h.2 _ _ ((lowIn_del h.1 _ _).1 hk).1⟩

theorem soundLow_coh {E : Env} {kvs : List Ent} {m} (h : Coh E kvs (some m)) : SoundLow E m :=
  ⟨h.1, fun l k hk => ((h.2 l k).1 hk).2⟩

theorem soundLow_init {E : Env} {kvs : List Ent} {low : Low} (h : ∀ m, low = some m → SoundLow E m) : SoundLow E (initCaseless E kvs low) := by
  cases low with
  | some m => exact h m rfl
  | none => exact soundLow_coh (coh_init (low := none) trivial)

/-- a lookup finds something that is there, also with an index that is out of date -/
theorem findKey_sound {E : Env} {cl : Bool} {kvs : List Ent} {low : Low} (hl : ∀ m, low = some m → SoundLow E m) (key : Bytes) :
    (∀ m, (findKey E cl kvs low key).1 = some m → SoundLow E m) ∧
    (∀ k, (findKey E cl kvs low key).2 = some k → Hits E.toLower (memb kvs) cl key k) ∧
    ((findKey E cl kvs low key).2 = none → memb kvs key = none) := by
  unfold findKey
  split
  · rename_i h
    exact ⟨hl, fun k hk => by cases hk; exact .exact (by rw [memb_isSome]; exact lookup_isSome.1 h), fun h => nomatch h⟩
  · rename_i hk
    have hn : memb kvs key = none := memb_none.2 fun h => hk (lookup_isSome.2 h)
    split
    · exact ⟨hl, (fun k hk => nomatch hk), fun _ => hn⟩
    · rename_i hcl
      simp only
      have hi := soundLow_init (kvs := kvs) hl
      split
      · exact ⟨(fun m hm => by cases hm; exact hi), (fun k hk => nomatch hk), fun _ => hn⟩
      · rename_i ks hg
        refine ⟨fun m hm => by cases hm; exact hi, fun k hk => ?_, fun _ => hn⟩
        obtain ⟨h1, h2⟩ := firstPresent_some hk
        exact .fold k (by simpa using hcl) hn (memb_isSome.2 h2) (hi.2 _ _ ⟨ks, lowGet_some hg, h1⟩)

theorem list_set_same {β : Type} {xs : List β} {i : Nat} {x : β} (h : xs[i]? = some x) : xs.set i x = xs := by
  obtain ⟨hlt, he⟩ := List.getElem?_eq_some_iff.1 h
  rw [← he, List.set_getElem_self]

/-- storing the result of a call -/
theorem save_world (s : ObjMem) {i : Nat} {h : ObjVar} (hi : s.vars[i]? = some h) (n : BitVec 32) (kvs : List Ent) (low : Low) :
    (s.save i h n kvs low).world = s.world.put h.map (memb kvs) := by
  have hv : ∀ h' : ObjVar, h'.map = h.map → (s.vars.set i h').map ObjVar.map = s.vars.map ObjVar.map := by
    intro h' he
    rw [List.map_set, he]
    exact list_set_same (by simp [hi])
  unfold ObjMem.save ObjMem.world World.put
  split <;> simp only [List.map_set (f := memb)] <;> congr 1 <;> exact hv _ rfl

theorem save_ok {E : Env} {s : ObjMem} (hs : ObjOk E s) {i : Nat} {h : ObjVar} (hi : s.vars[i]? = some h) {n : BitVec 32} {kvs : List Ent} {low : Low}
    (hn : (keys kvs).Nodup) (hl : ∀ m, low = some m → SoundLow E m) : ObjOk E (s.save i h n kvs low) := by
  have hb := hs.bound h (List.mem_of_getElem? hi)
  have hm : ∀ l ∈ s.maps.set h.map kvs, (keys l).Nodup := by
    intro l hl
    rcases List.mem_or_eq_of_mem_set hl with hl | rfl
    · exact hs.maps l hl
    · exact hn
  unfold ObjMem.save
  split
  · rename_i l m hlow
    refine ⟨fun h' hh => ?_, hm, fun m' hm' => ?_⟩
    · simp only [List.length_set]
      rcases List.mem_or_eq_of_mem_set hh with hh | rfl
      · exact hs.bound h' hh
      · exact hb
    · rcases List.mem_or_eq_of_mem_set hm' with hm' | rfl
      · exact hs.lows m' hm'
      · exact hl _ rfl
  · rename_i m hlow
    refine ⟨fun h' hh => ?_, hm, fun m' hm' => ?_⟩
    · simp only [List.length_set, List.length_append, List.length_singleton]
      rcases List.mem_or_eq_of_mem_set hh with hh | rfl
      · have := hs.bound h' hh
        exact ⟨this.1, fun l hl => by have := this.2 l hl; omega⟩
      · exact ⟨hb.1, fun l hl => by cases hl; omega⟩
    · simp only [List.mem_append, List.mem_singleton] at hm'
      rcases hm' with hm' | rfl
      · exact hs.lows m' hm'
      · exact hl _ rfl
  · refine ⟨fun h' hh => ?_, hm, hs.lows⟩
    simp only [List.length_set]
    rcases List.mem_or_eq_of_mem_set hh with hh | rfl
    · exact hs.bound h' hh
    · exact hb

theorem members_ok {E : Env} {s : ObjMem} (hs : ObjOk E s) {i : Nat} {h : ObjVar} (hi : s.vars[i]? = some h) :
    s.maps[h.map]? = some (s.members h) ∧ (keys (s.members h)).Nodup ∧ ∀ m, s.index h = some m → SoundLow E m := by
  obtain ⟨hb, hl⟩ := hs.bound h (List.mem_of_getElem? hi)
  have h1 : s.maps[h.map]? = some (s.members h) := by simp [ObjMem.members, List.getD, hb]
  refine ⟨h1, hs.maps _ (List.mem_of_getElem? h1), fun m hm => ?_⟩
  unfold ObjMem.index at hm
  cases hlow : h.low with
  | none => simp [hlow] at hm
  | some l =>
    simp only [hlow, Option.map_some, Option.some.injEq] at hm
    have hlt := hl l hlow
    have : s.lows[l]? = some m := by
      rw [← hm]; simp [List.getD, hlt]
    exact hs.lows m (List.mem_of_getElem? this)

/-! ## the index kept up to date -/

/-- Every index is exact, and shared by all variables with the same members. -/
structure Whole (E : Env) (s : ObjMem) : Prop where
  coh : ∀ h ∈ s.vars, Coh E (s.members h) (s.index h)
  shared : ∀ (i j : Nat) (h h' : ObjVar), s.vars[i]? = some h → s.vars[j]? = some h' → i ≠ j → h.map = h'.map → h.low = h'.low ∧ h.low.isSome = true
  apart : ∀ h ∈ s.vars, ∀ h' ∈ s.vars, ∀ l, h.low = some l → h'.low = some l → h.map = h'.map

theorem getElem?_set_some {β : Type} {xs : List β} {i j : Nat} {x y : β} (h : (xs.set i x)[j]? = some y) : (i = j ∧ y = x) ∨ (i ≠ j ∧ xs[j]? = some y) := by
  rw [List.getElem?_set] at h
  split at h
  · rename_i hij
    split at h
    · cases h; exact .inl ⟨hij, rfl⟩
    · cases h
  · rename_i hij
    exact .inr ⟨hij, h⟩

theorem getD_set_eq {β : Type} (xs : List β) (i : Nat) (x d : β) (hi : i < xs.length) : (xs.set i x).getD i d = x := by
  simp [List.getD, hi]

theorem getD_set_ne {β : Type} (xs : List β) (i j : Nat) (x d : β) (hij : i ≠ j) : (xs.set i x).getD j d = xs.getD j d := by
  simp [List.getD, hij]

theorem whole_save {E : Env} {s : ObjMem} (hs : ObjOk E s) (hw : Whole E s) {i : Nat} {h : ObjVar} (hi : s.vars[i]? = some h) {n : BitVec 32} {kvs : List Ent}
    {low : Low} (hc : Coh E kvs low) (hlow : h.low.isSome = true → low.isSome = true) : Whole E (s.save i h n kvs low) := by
  have hb := hs.bound h (List.mem_of_getElem? hi)
  have hmem : h ∈ s.vars := List.mem_of_getElem? hi
  unfold ObjMem.save
  split
  · rename_i l m hl
    have hll := hb.2 l hl
    refine ⟨fun h' hh => ?_, fun a b h1 h2 ha hbb hab he => ?_, fun h1 hh1 h2 hh2 l' hl1 hl2 => ?_⟩
    · obtain ⟨j, hj⟩ := List.getElem?_of_mem hh
      rcases getElem?_set_some hj with ⟨rfl, rfl⟩ | ⟨hij, hj'⟩
      · simp only [ObjMem.members, ObjMem.index, hl, Option.map_some]
        rw [getD_set_eq _ _ _ _ hb.1, getD_set_eq _ _ _ _ hll]
        exact hc
      · simp only [ObjMem.members, ObjMem.index]
        by_cases he : h.map = h'.map
        · have := (hw.shared i j h h' hi hj' hij he).1
          rw [← he, ← this, hl, getD_set_eq _ _ _ _ hb.1]
          simp only [Option.map_some]
          rw [getD_set_eq _ _ _ _ hll]
          exact hc
        · rw [getD_set_ne _ _ _ _ _ he]
          have hc' := hw.coh h' (List.mem_of_getElem? hj')
          simp only [ObjMem.members, ObjMem.index] at hc'
          cases hl' : h'.low with
          | none => trivial
          | some l' =>
            simp only [hl', Option.map_some] at hc' ⊢
            have hne : l ≠ l' := by
              rintro rfl
              exact he (hw.apart h hmem h' (List.mem_of_getElem? hj') l hl hl')
            rw [getD_set_ne _ _ _ _ _ hne]
            exact hc'
    · rcases getElem?_set_some ha with ⟨rfl, rfl⟩ | ⟨hia, ha'⟩ <;> rcases getElem?_set_some hbb with ⟨rfl, rfl⟩ | ⟨hib, hb'⟩
      · exact absurd rfl hab
      · exact hw.shared _ _ h h2 hi hb' hab he
      · exact hw.shared _ _ h1 h ha' hi hab he
      · exact hw.shared _ _ h1 h2 ha' hb' hab he
    · rcases List.mem_or_eq_of_mem_set hh1 with hh1 | rfl <;> rcases List.mem_or_eq_of_mem_set hh2 with hh2 | rfl
      · exact hw.apart h1 hh1 h2 hh2 l' hl1 hl2
      · exact hw.apart h1 hh1 h hmem l' hl1 hl2
      · exact hw.apart h hmem h2 hh2 l' hl1 hl2
      · rfl
  · rename_i m hl
    have alone : ∀ j h', s.vars[j]? = some h' → i ≠ j → h.map ≠ h'.map := by
      intro j h' hj hij he
      have := (hw.shared i j h h' hi hj hij he).2
      simp [hl] at this
    refine ⟨fun h' hh => ?_, fun a b h1 h2 ha hbb hab he => ?_, fun h1 hh1 h2 hh2 l' hl1 hl2 => ?_⟩
    · obtain ⟨j, hj⟩ := List.getElem?_of_mem hh
      rcases getElem?_set_some hj with ⟨rfl, rfl⟩ | ⟨hij, hj'⟩
      · simp only [ObjMem.members, ObjMem.index, Option.map_some]
        rw [getD_set_eq _ _ _ _ hb.1]
        simpa [List.getD] using hc
      · simp only [ObjMem.members, ObjMem.index]
        rw [getD_set_ne _ _ _ _ _ (alone j h' hj' hij)]
        have hc' := hw.coh h' (List.mem_of_getElem? hj')
        have hb' := (hs.bound h' (List.mem_of_getElem? hj')).2
        simp only [ObjMem.members, ObjMem.index] at hc'
        cases hl' : h'.low with
        | none => trivial
        | some l' =>
          simp only [hl', Option.map_some] at hc' ⊢
          have := hb' l' hl'
          simpa [List.getD, List.getElem?_append_left this] using hc'
    · rcases getElem?_set_some ha with ⟨rfl, rfl⟩ | ⟨hia, ha'⟩ <;> rcases getElem?_set_some hbb with ⟨rfl, rfl⟩ | ⟨hib, hb'⟩
      · exact absurd rfl hab
      · exact absurd he (alone _ _ hb' hab)
      · exact absurd he.symm (alone _ _ ha' (Ne.symm hab))
      · exact hw.shared _ _ h1 h2 ha' hb' hab he
    · rcases List.mem_or_eq_of_mem_set hh1 with hh1 | rfl <;> rcases List.mem_or_eq_of_mem_set hh2 with hh2 | rfl
      · exact hw.apart h1 hh1 h2 hh2 l' hl1 hl2
      · have := (hs.bound h1 hh1).2 l' hl1
        simp only [Option.some.injEq] at hl2
        omega
      · have := (hs.bound h2 hh2).2 l' hl2
        simp only [Option.some.injEq] at hl1
        omega
      · rfl
  · rename_i hno
    have hl : h.low = none := by
      cases hl : h.low with
      | none => rfl
      | some l => simpa using hlow (by simp [hl])
    have alone : ∀ j h', s.vars[j]? = some h' → i ≠ j → h.map ≠ h'.map := by
      intro j h' hj hij he
      have := (hw.shared i j h h' hi hj hij he).2
      simp [hl] at this
    refine ⟨fun h' hh => ?_, fun a b h1 h2 ha hbb hab he => ?_, fun h1 hh1 h2 hh2 l' hl1 hl2 => ?_⟩
    · obtain ⟨j, hj⟩ := List.getElem?_of_mem hh
      rcases getElem?_set_some hj with ⟨rfl, rfl⟩ | ⟨hij, hj'⟩
      · simp [ObjMem.index, hl, Coh]
      · have hc' := hw.coh h' (List.mem_of_getElem? hj')
        simp only [ObjMem.members, ObjMem.index] at hc' ⊢
        rw [getD_set_ne _ _ _ _ _ (alone j h' hj' hij)]
        exact hc'
    · rcases getElem?_set_some ha with ⟨rfl, rfl⟩ | ⟨hia, ha'⟩ <;> rcases getElem?_set_some hbb with ⟨rfl, rfl⟩ | ⟨hib, hb'⟩
      · exact absurd rfl hab
      · exact absurd he (alone _ _ hb' hab)
      · exact absurd he.symm (alone _ _ ha' (Ne.symm hab))
      · exact hw.shared _ _ h1 h2 ha' hb' hab he
    · rcases List.mem_or_eq_of_mem_set hh1 with hh1 | rfl <;> rcases List.mem_or_eq_of_mem_set hh2 with hh2 | rfl
      · exact hw.apart h1 hh1 h2 hh2 l' hl1 hl2
      · simp [hl] at hl2
      · simp [hl] at hl1
      · rfl

/-! ## one call -/

theorem keys_nodup_assign (e : Ent) {kvs : List Ent} (h : (keys kvs).Nodup) : (keys (assign e kvs)).Nodup := by
  rw [keys_assign]
  split
  · exact h
  · rename_i hk
    rw [List.nodup_append]
    exact ⟨h, by simp, fun a ha b hb => by simp at hb; subst hb; rintro rfl; exact hk ha⟩

theorem sound_addCaseless {E : Env} {low : Low} {k : Bytes} (h : ∀ m, low = some m → SoundLow E m) : ∀ m, addCaseless E low k = some m → SoundLow E m := by
  intro m hm
  cases low with
  | none => simp [addCaseless] at hm
  | some m' => simp only [addCaseless, Option.map_some, Option.some.injEq] at hm; subst hm; exact soundLow_add k (h m' rfl)

theorem sound_delCaseless {E : Env} {low : Low} {k : Bytes} (h : ∀ m, low = some m → SoundLow E m) : ∀ m, delCaseless E low k = some m → SoundLow E m := by
  intro m hm
  cases low with
  | none => simp [delCaseless] at hm
  | some m' => simp only [delCaseless, Option.map_some, Option.some.injEq] at hm; subst hm; exact soundLow_del _ k (h m' rfl)

theorem Hits.key {lower : Bytes → Bytes} {kvs : List Ent} {cl : Bool} {k k' : Bytes} (h : Hits lower (memb kvs) cl k k') : k' ∈ keys kvs := by
  cases h with
  | exact h => exact memb_isSome.1 h
  | fold _ _ _ h _ => exact memb_isSome.1 h

/-- nothing found with an exact index means there is nothing to find -/
theorem findKey_full {E : Env} {cl : Bool} {kvs : List Ent} {low : Low} (hc : Coh E kvs low) {key : Bytes} (h : (findKey E cl kvs low key).2 = none) :
    ∀ k', ¬ Hits E.toLower (memb kvs) cl key k' := by
  intro k' hh
  cases hh with
  | exact he =>
    have : (lookup key kvs).isSome = true := lookup_isSome.2 (memb_isSome.1 he)
    simp [findKey, this] at h
  | fold _ hcl _ hk hl =>
    subst hcl
    rcases findKey_true hc key with ⟨-, h2⟩ | ⟨-, k, h2, -⟩ | ⟨-, h2⟩
    · rw [h] at h2; cases h2
    · rw [h] at h2; cases h2
    · exact h2 _ (memb_isSome.1 hk) hl

theorem findKey_keeps_some {E : Env} {cl : Bool} {kvs : List Ent} {low : Low} {key : Bytes} (h : low.isSome = true) : (findKey E cl kvs low key).1.isSome = true := by
  unfold findKey
  split
  · exact h
  · split
    · exact h
    · simp only; split <;> rfl

/-- no variable is copied before it has an index -/
def CopiedLate (s : ObjMem) (o : CopyOp) : Prop := ∀ i h, o = .copy i → s.vars[i]? = some h → h.low.isSome = true

theorem put_same {w : World} {a : Nat} {f : Bytes → Option V} (h : w.fams[a]? = some f) : w.put a f = w := by
  unfold World.put
  rw [list_set_same h]

theorem step_all {E : Env} {s : ObjMem} (hs : ObjOk E s) {o : CopyOp} (ho : o.var < s.vars.length) {full : Prop} (hf : full → Whole E s) :
    CopyStep full E.toLower s.world o (s.step E o).2 (s.step E o).1.world ∧ ObjOk E (s.step E o).1 ∧ ((full → CopiedLate s o) → full → Whole E (s.step E o).1) := by
  obtain ⟨h, hi⟩ : ∃ h, s.vars[o.var]? = some h := ⟨_, List.getElem?_eq_getElem ho⟩
  obtain ⟨h1, hn, hl⟩ := members_ok hs hi
  have hv : s.world.vars[o.var]? = some h.map := by simp [ObjMem.world, hi]
  have hfam : s.world.fams[h.map]? = some (memb (s.members h)) := by simp [ObjMem.world, h1]
  have hidx : h.low.isSome = true → (s.index h).isSome = true := by
    intro hh; simpa [ObjMem.index] using hh
  have hcoh : full → Coh E (s.members h) (s.index h) := fun hh => (hf hh).coh h (List.mem_of_getElem? hi)
  unfold ObjMem.step
  rw [hi]
  cases o with
  | set i k c =>
    simp only [setKey, ObjMem.saveV]
    simp only [CopyOp.var] at hi hv
    refine ⟨?_, save_ok hs hi (keys_nodup_assign _ hn) (sound_addCaseless hl), fun _ hh => ?_⟩
    · rw [save_world s hi, memb_assign]
      exact .set hv hfam
    · exact whole_save hs (hf hh) hi (coh_add _ _ _ (hcoh hh)) fun h' => by simpa [addCaseless] using hidx h'
  | del i cl k =>
    simp only [CopyOp.var] at hi hv
    obtain ⟨f1, f2, f3⟩ := findKey_sound (cl := cl) (kvs := s.members h) hl k
    have fc : full → Coh E (s.members h) (findKey E cl (s.members h) (s.index h) k).1 := fun hh => findKey_coh (hcoh hh)
    have fk := findKey_full (E := E) (cl := cl) (kvs := s.members h) (low := s.index h) (key := k)
    have fs := findKey_keeps_some (E := E) (cl := cl) (kvs := s.members h) (low := s.index h) (key := k)
    cases hfk : findKey E cl (s.members h) (s.index h) k with
    | mk low r =>
      rw [hfk] at f1 f2 f3 fc fk fs
      cases r with
      | some k' =>
        have hd : delKey E cl h.incr (s.members h) (s.index h) k = (.obj h.incr (erase k' (s.members h)) (delCaseless E low k'), true) := by rw [delKey, hfk]
        simp only [hd, ObjMem.saveV]
        refine ⟨?_, save_ok hs hi (keys_erase_nodup hn) (sound_delCaseless f1), fun _ hh => ?_⟩
        · rw [save_world s hi, memb_erase _ hn]
          exact .del hv hfam (f2 k' rfl)
        · exact whole_save hs (hf hh) hi (coh_del _ hn (fc hh)) fun h' => by simpa [delCaseless] using fs (hidx h')
      | none =>
        have hd : delKey E cl h.incr (s.members h) (s.index h) k = (.obj h.incr (s.members h) low, false) := by rw [delKey, hfk]
        simp only [hd, ObjMem.saveV]
        refine ⟨?_, save_ok hs hi hn f1, fun _ hh => ?_⟩
        · rw [save_world s hi, put_same hfam]
          exact .delNot hv hfam ⟨f3 rfl, fun hh => fk (hcoh hh) rfl⟩
        · exact whole_save hs (hf hh) hi (fc hh) fun h' => fs (hidx h')
  | get i cl k =>
    simp only [CopyOp.var] at hi hv
    obtain ⟨f1, f2, f3⟩ := findKey_sound (cl := cl) (kvs := s.members h) hl k
    have fc : full → Coh E (s.members h) (findKey E cl (s.members h) (s.index h) k).1 := fun hh => findKey_coh (hcoh hh)
    have fk := findKey_full (E := E) (cl := cl) (kvs := s.members h) (low := s.index h) (key := k)
    have fs := findKey_keeps_some (E := E) (cl := cl) (kvs := s.members h) (low := s.index h) (key := k)
    refine ⟨?_, save_ok hs hi hn f1, fun _ hh => whole_save hs (hf hh) hi (fc hh) fun h' => fs (hidx h')⟩
    simp only
    rw [save_world s hi, put_same hfam]
    cases hr : (findKey E cl (s.members h) (s.index h) k).2 with
    | some k' =>
      have hh := f2 k' hr
      obtain ⟨e, he⟩ := Option.isSome_iff_exists.1 (lookup_isSome.2 (Hits.key hh))
      simp only [he]
      exact .get hv hfam hh (by simp [memb, he])
    | none => exact .getNot hv hfam ⟨f3 hr, fun hh => fk (hcoh hh) hr⟩
  | sub i k f =>
    simp only [CopyOp.var] at hi hv
    simp only
    cases he : lookup k (s.members h) with
    | some e =>
      simp only
      refine ⟨?_, save_ok hs hi (by rw [keys_putKey]; exact hn) hl, fun _ hh => ?_⟩
      · rw [save_world s hi, memb_putKey (by simp [he])]
        exact .sub (c := e.v) hv hfam (by simp [memb, he])
      · exact whole_save hs (hf hh) hi (coh_keys (fun k => by rw [keys_putKey]) (hcoh hh)) hidx
    | none => exact ⟨.subNot hv hfam (by simp [memb, he]), hs, fun _ => hf⟩
  | copy i =>
    simp only [CopyOp.var] at hi hv
    simp only
    refine ⟨?_, ⟨fun h' hh => ?_, hs.maps, hs.lows⟩, fun hc hh => ?_⟩
    · have : ObjMem.world { s with vars := s.vars ++ [h] } = { s.world with vars := s.world.vars ++ [h.map] } := by simp [ObjMem.world]
      rw [this]
      exact .copy hv
    · simp only [List.mem_append, List.mem_singleton] at hh
      rcases hh with hh | rfl
      · exact hs.bound _ hh
      · exact hs.bound _ (List.mem_of_getElem? hi)
    · have hsome := hc hh i h rfl hi
      have hw := hf hh
      have hmem := List.mem_of_getElem? hi
      have cases' : ∀ {j : Nat} {g : ObjVar}, (s.vars ++ [h])[j]? = some g → s.vars[j]? = some g ∨ (j = s.vars.length ∧ g = h) := by
        intro j g hj
        rw [List.getElem?_append] at hj
        split at hj
        · exact .inl hj
        · obtain ⟨hlt, he⟩ := List.getElem?_eq_some_iff.1 hj
          simp at hlt he
          exact .inr ⟨by omega, he.symm⟩
      refine ⟨fun h' hh' => ?_, fun a b g g' ha hb hab he => ?_, fun g hg g' hg' l hl1 hl2 => ?_⟩
      · simp only [List.mem_append, List.mem_singleton] at hh'
        rcases hh' with hh' | rfl
        · exact hw.coh _ hh'
        · exact hw.coh _ hmem
      · rcases cases' ha with ha' | ⟨ha', rfl⟩ <;> rcases cases' hb with hb' | ⟨hb', rfl⟩
        · exact hw.shared _ _ _ _ ha' hb' hab he
        · by_cases hai : a = i
          · subst hai; rw [hi] at ha'; cases ha'; exact ⟨rfl, hsome⟩
          · exact hw.shared _ _ _ _ ha' hi hai he
        · by_cases hbi : b = i
          · subst hbi; rw [hi] at hb'; cases hb'; exact ⟨rfl, hsome⟩
          · exact hw.shared _ _ _ _ hi hb' (Ne.symm hbi) he
        · omega
      · simp only [List.mem_append, List.mem_singleton] at hg hg'
        rcases hg with hg | rfl <;> rcases hg' with hg' | rfl
        · exact hw.apart _ hg _ hg' l hl1 hl2
        · exact hw.apart _ hg _ hmem l hl1 hl2
        · exact hw.apart _ hmem _ hg' l hl1 hl2
        · rfl
  | clone i =>
    simp only [CopyOp.var] at hi hv
    simp only
    refine ⟨?_, ⟨fun h' hh => ?_, fun kvs hk => ?_, hs.lows⟩, fun hc hh => ?_⟩
    · have : ObjMem.world { s with maps := s.maps ++ [s.members h], vars := s.vars ++ [{ incr := h.incr, map := s.maps.length, low := none }] } =
          { fams := s.world.fams ++ [memb (s.members h)], vars := s.world.vars ++ [s.world.fams.length] } := by simp [ObjMem.world]
      rw [this]
      exact .clone hv hfam
    · simp only [List.mem_append, List.mem_singleton] at hh
      simp only [List.length_append, List.length_singleton]
      rcases hh with hh | rfl
      · have := hs.bound _ hh
        exact ⟨by omega, this.2⟩
      · exact ⟨by simp, fun l hl => nomatch hl⟩
    · simp only [List.mem_append, List.mem_singleton] at hk
      rcases hk with hk | rfl
      · exact hs.maps _ hk
      · exact hn
    · have hw := hf hh
      have cases' : ∀ {j : Nat} {g : ObjVar}, (s.vars ++ [{ incr := h.incr, map := s.maps.length, low := none : ObjVar }])[j]? = some g →
          s.vars[j]? = some g ∨ (j = s.vars.length ∧ g = { incr := h.incr, map := s.maps.length, low := none }) := by
        intro j g hj
        rw [List.getElem?_append] at hj
        split at hj
        · exact .inl hj
        · obtain ⟨hlt, he⟩ := List.getElem?_eq_some_iff.1 hj
          simp at hlt he
          exact .inr ⟨by omega, he.symm⟩
      refine ⟨fun h' hh' => ?_, fun a b g g' ha hb hab he => ?_, fun g hg g' hg' l hl1 hl2 => ?_⟩
      · simp only [List.mem_append, List.mem_singleton] at hh'
        rcases hh' with hh' | rfl
        · have hb := (hs.bound _ hh').1
          have := hw.coh _ hh'
          simpa [ObjMem.members, ObjMem.index, List.getD, List.getElem?_append_left hb] using this
        · simp [ObjMem.index, Coh]
      · rcases cases' ha with ha | ⟨ha, rfl⟩ <;> rcases cases' hb with hb | ⟨hb, rfl⟩
        · exact hw.shared _ _ _ _ ha hb hab he
        · have := (hs.bound _ (List.mem_of_getElem? ha)).1
          simp only at he; omega
        · have := (hs.bound _ (List.mem_of_getElem? hb)).1
          simp only at he; omega
        · omega
      · simp only [List.mem_append, List.mem_singleton] at hg hg'
        rcases hg with hg | rfl <;> rcases hg' with hg' | rfl
        · exact hw.apart _ hg _ hg' l hl1 hl2
        · cases hl2
        · cases hl1
        · rfl

/-! ## arrays -/

variable {α : Type}

/-- what another window on the same memory shows -/
def ArrV.other (a : ArrV α) (h : Nat × Nat) : List α := (a.mem.getD h.1 []).take h.2

theorem other_frame {a b : ArrV α} (hf : Frame a b) {h : Nat × Nat} (hr : h.1 < a.mem.length) (hne : h.1 ≠ a.arr) : b.other h = a.other h := by
  simp [ArrV.other, List.getD, hf.rest _ hr hne]

theorem copy_cells {a : ArrV α} (h : WFArr a) (d s : Nat) (hd : d ≤ a.len) (hs : s ≤ a.len) :
    ∃ b, a.copy d s = .ok b ∧ b.arr = a.arr ∧ b.cells = copyAt a.view d (a.view.drop s) ++ a.cells.drop a.len := by
  have hv := view_length h
  have hl : (copyAt a.view d (a.view.drop s)).length = a.len := by rw [copyAt_length _ _ _ (by omega), hv]
  obtain ⟨-, -, g3, -⟩ := set_cells h (copyAt a.view d (a.view.drop s) ++ a.cells.drop a.len) a.len (by simp [hl])
  exact ⟨a.fill (copyAt a.view d (a.view.drop s)), by rw [ArrV.copy, if_pos ⟨hd, hs⟩], rfl, g3⟩

theorem take_front (xs c : List α) (k n : Nat) (hn : n ≤ c.length) (hx : xs.length = k) :
    (xs ++ c.drop k).take n = (xs ++ (c.take n).drop k).take (c.take n).length := by
  rw [List.take_append, List.take_append, List.length_take, Nat.min_eq_left hn, List.drop_take, List.take_take, hx, Nat.min_self]

theorem erase_last [HasNil α] (xs : List α) (p : Nat) (hp : p < xs.length) :
    copyAt (xs.set p HasNil.nilv) p ((xs.set p HasNil.nilv).drop (p + 1)) =
      xs.eraseIdx p ++ [if p + 1 = xs.length then HasNil.nilv else xs.getLastD HasNil.nilv] := by
  have h1 : (xs.set p HasNil.nilv).drop (p + 1) = xs.drop (p + 1) := by rw [List.drop_set_of_lt (by omega)]
  have h2 : (xs.set p HasNil.nilv).take p = xs.take p := by rw [List.take_set_of_le (Nat.le_refl _)]
  have hne : xs ≠ [] := by rintro rfl; simp at hp
  unfold copyAt
  rw [h1, h2, List.take_of_length_le (l := xs.drop (p + 1)) (by simp; omega), List.eraseIdx_eq_take_drop_succ, List.length_drop]
  congr 1
  rw [show p + (xs.length - (p + 1)) = xs.length - 1 by omega]
  apply List.ext_getElem?
  intro j
  rw [List.getElem?_drop, List.getElem?_set]
  cases j with
  | zero =>
    simp only [Nat.add_zero]
    by_cases hl : p + 1 = xs.length
    · rw [if_pos (by omega), if_pos (by omega), if_pos hl]; rfl
    · rw [if_neg (by omega), if_neg hl, ← List.getLast?_eq_getElem?, List.getLastD_eq_getLast?]
      rw [List.getLast?_eq_some_getLast hne]; rfl
  | succ j =>
    rw [if_neg (by omega), List.getElem?_eq_none (by omega)]
    simp

theorem op_shadow [HasNil α] (grow : Nat → Nat) {a b : ArrV α} (h : WFArr a) {o : SliceOp α} (he : a.op grow o = .ok b) (n : Nat) (hn : n ≤ a.cells.length) :
    b.other (a.arr, n) = shadow (decide (a.len < a.cells.length)) a.view (a.cells.take n) o := by
  obtain ⟨h1, h2, h3⟩ := wf_cells h
  have hv := view_length h
  have self : ∀ {b : ArrV α}, b.arr = a.arr → b.other (a.arr, n) = b.cells.take n := by
    intro b hb; simp [ArrV.other, ArrV.cells, hb]
  have grown : ∀ x, ¬ a.len < a.cells.length → (a.append grow x).mem = a.mem ++ [a.view ++ x :: List.replicate (grow a.len - (a.len + 1)) HasNil.nilv] ∧
      (a.append grow x).arr = a.mem.length := by
    intro x hc
    simp [ArrV.append, hc]
  have room : ∀ x, a.len < a.cells.length → (a.append grow x).arr = a.arr ∧ (a.append grow x).cells = a.cells.set a.len x := by
    intro x hc
    obtain ⟨-, -, g3, -⟩ := set_cells h (a.cells.set a.len x) (a.len + 1) (by simp; omega)
    simp only [ArrV.append, if_pos hc]
    exact ⟨trivial, g3⟩
  cases o with
  | append x =>
    simp only [ArrV.op] at he
    cases he
    by_cases hc : a.len < a.cells.length
    · rw [self (room x hc).1, (room x hc).2]
      simp only [shadow, hc, decide_true, if_true, hv, List.take_set]
    · simp only [shadow, hc, decide_false, ArrV.other, (grown x hc).1]
      simp [List.getD, List.getElem?_append_left h3, ArrV.cells]
  | set p x =>
    simp only [ArrV.op] at he
    by_cases hp : p < a.len
    · obtain ⟨c, g1, g2, g3, g4, g5, g6, g7⟩ := store_spec h p x hp
      rw [g1] at he; cases he
      rw [self g6, g7, shadow, List.take_set]
    · simp [ArrV.store, hp] at he
  | insert p x =>
    have ht := tracks_op grow h (.insert p x)
    obtain ⟨w1, w2, w3, w4⟩ := append_spec grow h HasNil.nilv
    by_cases hp : p ≤ a.len
    · obtain ⟨c, g1, g2, g3⟩ := copy_cells w1 (p + 1) p (by omega) (by omega)
      obtain ⟨c', g1', w5, w6, w7, w8⟩ := copy_spec w1 (p + 1) p (by omega) (by omega)
      rw [g1] at g1'; cases g1'
      obtain ⟨d, k1, k2, k3, k4, k5, k6, k7⟩ := store_spec w5 p x (by omega)
      have hb : a.op grow (.insert p x) = .ok d := by simp only [ArrV.op, ArrV.insert, g1, R.bind_ok, k1]
      rw [hb] at he; cases he
      have hview : b.view = a.view.take p ++ x :: a.view.drop p := by
        rcases ht with ⟨b', e1, e2, -⟩ | ⟨e1, -⟩
        · rw [hb] at e1; cases e1
          rw [listOp, if_pos (by omega)] at e2
          exact (R.ok.inj e2).symm
        · rw [hb] at e1; cases e1
      by_cases hc : a.len < a.cells.length
      · have hcells : b.cells = b.view ++ a.cells.drop (a.len + 1) := by
          have hvl := view_length w1
          have e1 : b.cells.drop (a.len + 1) = a.cells.drop (a.len + 1) := by
            rw [k7, List.drop_set_of_lt (by omega), g3, w4, (room _ hc).2, List.drop_set_of_lt (by omega),
              List.drop_append_of_le_length (by rw [copyAt_length _ _ _ (by omega)]; omega), List.drop_eq_nil_of_le (by rw [copyAt_length _ _ _ (by omega)]; omega)]
            simp
          have e2 : b.view = b.cells.take (a.len + 1) := by rw [ArrV.view, k5, w8, w4]
          rw [← e1, e2, List.take_append_drop]
        rw [self (k6.trans (g2.trans (room _ hc).1)), hcells, hview]
        simp only [shadow, hc, decide_true, if_true, hv]
        exact take_front _ _ _ _ hn (by simp [hv]; omega)
      · have hrest := (w6.trans k3).rest a.arr (by rw [(grown _ hc).1]; simp; omega) (by rw [(grown _ hc).2]; omega)
        simp only [shadow, hc, decide_false]
        have : b.mem[a.arr]? = some a.cells := by
          rw [hrest, (grown _ hc).1, List.getElem?_append_left h3, h1]
        simp [ArrV.other, List.getD, this]
    · rcases ht with ⟨b', e1, e2, -⟩ | ⟨e1, -⟩
      · rw [listOp, if_neg (by omega)] at e2; cases e2
      · rw [e1] at he; cases he
  | delete p =>
    by_cases hp : p < a.len
    · obtain ⟨c, g1, g2, g3, g4, g5, g6, g7⟩ := store_spec h p HasNil.nilv hp
      obtain ⟨d, k1, k2, k3⟩ := copy_cells g2 p (p + 1) (by omega) (by omega)
      simp only [ArrV.op, ArrV.delete, g1, R.bind_ok, k1, R.pure_eq] at he
      cases he
      have hcells : ({ d with len := a.len - 1 } : ArrV α).cells = d.cells := rfl
      rw [self (by exact k2.trans g6), hcells, k3, g4, erase_last _ _ (by omega), g5, g7, List.drop_set_of_lt (by omega)]
      simp only [shadow]
      rw [take_front _ _ _ _ hn (by simp [List.length_eraseIdx, hv, hp]; omega), hv, List.append_assoc]
      rfl
    · simp [ArrV.op, ArrV.delete, ArrV.store, hp] at he
  | swap p q =>
    simp only [ArrV.op] at he
    cases hx : a.view[p]? with
    | none => simp [hx] at he
    | some x =>
      cases hy : a.view[q]? with
      | none => simp [hx, hy] at he
      | some y =>
        have hi := (List.getElem?_eq_some_iff.1 hx).1
        have hj := (List.getElem?_eq_some_iff.1 hy).1
        obtain ⟨c, g1, g2, g3, g4, g5, g6, g7⟩ := store_spec h p y (by omega)
        obtain ⟨d, k1, k2, k3, k4, k5, k6, k7⟩ := store_spec g2 q x (by omega)
        simp only [hx, hy, g1, R.bind_ok, k1] at he
        cases he
        rw [self (k6.trans g6), k7, g7]
        simp only [shadow, hx, hy, List.take_set]

theorem shadow_length [HasNil α] (room : Bool) (xs ys : List α) (o : SliceOp α) (hle : xs.length ≤ ys.length) (hr : room = true → xs.length < ys.length) :
    (shadow room xs ys o).length = ys.length := by
  cases o with
  | append x => simp only [shadow]; split <;> simp
  | set p x => simp [shadow]
  | insert p x =>
    simp only [shadow]
    split
    · rename_i h
      have := hr h
      simp; omega
    · rfl
  | delete p => simp [shadow, List.length_eraseIdx]; split <;> omega
  | swap p q =>
    simp only [shadow]
    split <;> simp

/-- the array the slice was in keeps its capacity -/
theorem cap_kept [HasNil α] (grow : Nat → Nat) {a b : ArrV α} (h : WFArr a) {o : SliceOp α} (he : a.op grow o = .ok b) :
    ∃ cells, b.mem[a.arr]? = some cells ∧ a.cells.length ≤ cells.length := by
  obtain ⟨h1, h2, h3⟩ := wf_cells h
  have hv := view_length h
  have hsh := op_shadow grow h he a.cells.length (Nat.le_refl _)
  have hlt : a.arr < b.mem.length := by
    rcases tracks_op grow h o with ⟨c, e1, -, -, e2⟩ | ⟨e1, -⟩
    · rw [e1] at he; cases he; have := e2.more; omega
    · rw [e1] at he; cases he
  refine ⟨b.mem[a.arr], List.getElem?_eq_getElem hlt, ?_⟩
  have hl := congrArg List.length hsh
  rw [List.take_of_length_le (Nat.le_refl _), shadow_length _ _ _ _ (by omega) (by intro hr; simp at hr; omega)] at hl
  simp only [ArrV.other, List.getD, List.getElem?_eq_getElem hlt, Option.getD_some, List.length_take] at hl
  omega

end JV
