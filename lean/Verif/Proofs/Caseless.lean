import Verif.Proofs.Hered
/-! The index of lower-cased keys. -/
namespace JV
open Spec

def LowIn (m : List (Bytes × List Bytes)) (l k : Bytes) : Prop := ∃ ks, (l, ks) ∈ m ∧ k ∈ ks

theorem lowIn_cons {l' ks m l k} : LowIn ((l', ks) :: m) l k ↔ (l' = l ∧ k ∈ ks) ∨ LowIn m l k := by
  unfold LowIn
  constructor
  · rintro ⟨ks', h, hk⟩
    simp at h
    rcases h with ⟨rfl, rfl⟩ | h
    · exact .inl ⟨rfl, hk⟩
    · exact .inr ⟨ks', h, hk⟩
  · rintro (⟨rfl, hk⟩ | ⟨ks', h, hk⟩)
    · exact ⟨ks, by simp, hk⟩
    · exact ⟨ks', by simp [h], hk⟩

theorem lowIn_nil {l k} : ¬ LowIn [] l k := by rintro ⟨ks, h, -⟩; simp at h

theorem lowIn_add (l0 k0 : Bytes) (m : List (Bytes × List Bytes)) (l k : Bytes) :
    LowIn (lowAdd l0 k0 m) l k ↔ LowIn m l k ∨ (l0 = l ∧ k0 = k) := by
  induction m with
  | nil => simp [lowAdd, lowIn_cons, lowIn_nil, eq_comm (a := k0)]
  | cons x m ih =>
    obtain ⟨l', ks⟩ := x
    simp only [lowAdd]
    split
    · rename_i h; subst h
      simp only [lowIn_cons]
      by_cases hc : ks.contains k0 = true
      · simp only [hc, if_true]
        have hc : k0 ∈ ks := by simpa using hc
        constructor
        · exact .inl
        · rintro (h | ⟨rfl, rfl⟩)
          · exact h
          · exact .inl ⟨rfl, hc⟩
      · simp only [hc, if_false, Bool.false_eq_true]
        simp only [List.mem_append, List.mem_singleton]
        constructor
        · rintro (⟨h1, h2 | h2⟩ | h)
          · exact .inl (.inl ⟨h1, h2⟩)
          · exact .inr ⟨h1, h2.symm⟩
          · exact .inl (.inr h)
        · rintro ((h | h) | ⟨h1, h2⟩)
          · exact .inl ⟨h.1, .inl h.2⟩
          · exact .inr h
          · exact .inl ⟨h1, .inr h2.symm⟩
    · simp only [lowIn_cons, ih, or_assoc]

theorem lowAdd_fst (l0 k0 : Bytes) (m : List (Bytes × List Bytes)) :
    (lowAdd l0 k0 m).map Prod.fst = if l0 ∈ m.map Prod.fst then m.map Prod.fst else m.map Prod.fst ++ [l0] := by
  induction m with
  | nil => simp [lowAdd]
  | cons x m ih =>
    obtain ⟨l', ks⟩ := x
    simp only [lowAdd]
    split
    · rename_i h; subst h; simp
    · rename_i h
      simp only [List.map_cons, ih, List.mem_cons, Ne.symm h, false_or]
      split <;> simp

theorem lowAdd_nodup {l0 k0 : Bytes} {m : List (Bytes × List Bytes)} (h : (m.map Prod.fst).Nodup) : ((lowAdd l0 k0 m).map Prod.fst).Nodup := by
  rw [lowAdd_fst]
  split
  · exact h
  · rename_i hn
    rw [List.nodup_append]
    refine ⟨h, by simp, ?_⟩
    intro a ha b hb
    simp at hb; subst hb
    rintro rfl; exact hn ha

theorem lowDel_sub (l0 k0 : Bytes) (m : List (Bytes × List Bytes)) : ((lowDel l0 k0 m).map Prod.fst).Sublist (m.map Prod.fst) := by
  induction m with
  | nil => simp [lowDel]
  | cons x m ih =>
    obtain ⟨l', ks⟩ := x
    simp only [lowDel]
    split
    · split
      · simp
      · simp
    · simpa using ih

theorem lowIn_del {l0 k0 : Bytes} {m : List (Bytes × List Bytes)} (hn : (m.map Prod.fst).Nodup) (l k : Bytes) :
    LowIn (lowDel l0 k0 m) l k ↔ LowIn m l k ∧ ¬ (l0 = l ∧ k0 = k) := by
  induction m with
  | nil => simp [lowDel, lowIn_nil]
  | cons x m ih =>
    obtain ⟨l', ks⟩ := x
    simp only [List.map_cons, List.nodup_cons] at hn
    have hout : ∀ k, ¬ LowIn m l' k := by
      rintro k ⟨ks, h, -⟩
      exact hn.1 (List.mem_map_of_mem (f := Prod.fst) h)
    have hks : ∀ k, (k ∈ ks.filter (· ≠ k0)) ↔ k ∈ ks ∧ k ≠ k0 := by intro k; simp
    simp only [lowDel]
    split
    · rename_i h; subst h
      split
      · rename_i he
        have he : ∀ k ∈ ks, k = k0 := by
          intro k hk
          apply Classical.byContradiction
          intro hne
          have := (hks k).2 ⟨hk, hne⟩
          rw [List.isEmpty_iff.1 he] at this
          simp at this
        rw [lowIn_cons]
        constructor
        · intro h
          refine ⟨.inr h, ?_⟩
          rintro ⟨rfl, -⟩
          exact hout k h
        · rintro ⟨⟨rfl, h⟩ | h, hne⟩
          · exact absurd ⟨rfl, (he k h).symm⟩ hne
          · exact h
      · rw [lowIn_cons, lowIn_cons, hks]
        constructor
        · rintro (⟨rfl, h1, h2⟩ | h)
          · exact ⟨.inl ⟨rfl, h1⟩, fun hh => h2 hh.2.symm⟩
          · refine ⟨.inr h, ?_⟩
            rintro ⟨rfl, -⟩
            exact hout k h
        · rintro ⟨⟨rfl, h⟩ | h, hne⟩
          · exact .inl ⟨rfl, h, fun hh => hne ⟨rfl, hh.symm⟩⟩
          · exact .inr h
    · rename_i hne'
      rw [lowIn_cons, lowIn_cons, ih hn.2]
      constructor
      · rintro (⟨rfl, h⟩ | h)
        · exact ⟨.inl ⟨rfl, h⟩, fun hh => hne' hh.1.symm⟩
        · exact ⟨.inr h.1, h.2⟩
      · rintro ⟨h | h, hh⟩
        · exact .inl h
        · exact .inr ⟨h, hh⟩

theorem lowGet_some {l : Bytes} {m : List (Bytes × List Bytes)} {ks} (h : lowGet l m = some ks) : (l, ks) ∈ m := by
  induction m with
  | nil => simp [lowGet] at h
  | cons x m ih =>
    obtain ⟨l', ks'⟩ := x
    simp only [lowGet] at h
    split at h
    · simp at h; subst h; rename_i h; subst h; simp
    · simp [ih h]

theorem lowGet_of_in {l k : Bytes} {m : List (Bytes × List Bytes)} (hn : (m.map Prod.fst).Nodup) (h : LowIn m l k) : ∃ ks, lowGet l m = some ks ∧ k ∈ ks := by
  induction m with
  | nil => exact absurd h lowIn_nil
  | cons x m ih =>
    obtain ⟨l', ks'⟩ := x
    simp only [List.map_cons, List.nodup_cons] at hn
    simp only [lowGet]
    rcases lowIn_cons.1 h with ⟨rfl, hk⟩ | h
    · exact ⟨ks', by simp, hk⟩
    · have : l' ≠ l := by
        rintro rfl
        obtain ⟨ks, h, -⟩ := h
        exact hn.1 (List.mem_map_of_mem (f := Prod.fst) h)
      simp [this, ih hn.2 h]

/-! ## the invariant is kept -/

theorem coh_some {E : Env} {kvs : List Ent} {m} : Coh E kvs (some m) ↔ (m.map Prod.fst).Nodup ∧ ∀ l k, LowIn m l k ↔ (k ∈ keys kvs ∧ E.toLower k = l) := Iff.rfl

theorem coh_keys {E : Env} {kvs kvs' : List Ent} {low : Low} (h : ∀ k, k ∈ keys kvs ↔ k ∈ keys kvs') (hc : Coh E kvs low) : Coh E kvs' low := by
  cases low with
  | none => trivial
  | some m =>
    rw [coh_some] at hc ⊢
    exact ⟨hc.1, fun l k => by rw [hc.2, h]⟩

theorem coh_add {E : Env} {kvs : List Ent} {low : Low} (k i c) (hc : Coh E kvs low) : Coh E (assign ⟨k, i, c⟩ kvs) (addCaseless E low k) := by
  cases low with
  | none => trivial
  | some m =>
    simp only [addCaseless, Option.map_some]
    rw [coh_some] at hc ⊢
    refine ⟨lowAdd_nodup hc.1, fun l k' => ?_⟩
    rw [lowIn_add, hc.2, keys_assign, show (Ent.mk k i c).key = k from rfl]
    split
    · constructor
      · rintro (h | ⟨rfl, rfl⟩)
        · exact h
        · exact ⟨by assumption, rfl⟩
      · exact .inl
    · simp only [List.mem_append, List.mem_singleton]
      constructor
      · rintro (h | ⟨rfl, rfl⟩)
        · exact ⟨.inl h.1, h.2⟩
        · exact ⟨.inr rfl, rfl⟩
      · rintro ⟨h | rfl, rfl⟩
        · exact .inl ⟨h, rfl⟩
        · exact .inr ⟨rfl, rfl⟩

theorem coh_del {E : Env} {kvs : List Ent} {low : Low} (k) (hn : (keys kvs).Nodup) (hc : Coh E kvs low) : Coh E (erase k kvs) (delCaseless E low k) := by
  cases low with
  | none => trivial
  | some m =>
    simp only [delCaseless, Option.map_some]
    rw [coh_some] at hc ⊢
    refine ⟨hc.1.sublist (lowDel_sub _ _ _), fun l k' => ?_⟩
    rw [lowIn_del hc.1, hc.2, keys_erase, List.Nodup.mem_erase_iff hn]
    constructor
    · rintro ⟨⟨h1, rfl⟩, h2⟩
      exact ⟨⟨fun h => h2 ⟨by rw [h], h.symm⟩, h1⟩, rfl⟩
    · rintro ⟨⟨h1, h2⟩, rfl⟩
      exact ⟨⟨h2, rfl⟩, fun h => h1 h.2.symm⟩

theorem foldl_lowAdd (E : Env) (kvs : List Ent) : ∀ m : List (Bytes × List Bytes), (m.map Prod.fst).Nodup →
    ((kvs.foldl (fun m e => lowAdd (E.toLower e.key) e.key m) m).map Prod.fst).Nodup ∧
    ∀ l k, LowIn (kvs.foldl (fun m e => lowAdd (E.toLower e.key) e.key m) m) l k ↔ LowIn m l k ∨ (k ∈ keys kvs ∧ E.toLower k = l) := by
  induction kvs with
  | nil => intro m h; exact ⟨h, by simp⟩
  | cons e kvs ih =>
    intro m h
    obtain ⟨h1, h2⟩ := ih (lowAdd (E.toLower e.key) e.key m) (lowAdd_nodup h)
    refine ⟨h1, fun l k => ?_⟩
    simp only [List.foldl_cons] at h2 ⊢
    rw [h2, lowIn_add]
    simp only [keys_cons, List.mem_cons]
    constructor
    · rintro ((h | ⟨rfl, rfl⟩) | ⟨h, rfl⟩)
      · exact .inl h
      · exact .inr ⟨.inl rfl, rfl⟩
      · exact .inr ⟨.inr h, rfl⟩
    · rintro (h | ⟨rfl | h, rfl⟩)
      · exact .inl (.inl h)
      · exact .inl (.inr ⟨rfl, rfl⟩)
      · exact .inr ⟨h, rfl⟩

theorem coh_init {E : Env} {kvs : List Ent} {low : Low} (hc : Coh E kvs low) : Coh E kvs (some (initCaseless E kvs low)) := by
  cases low with
  | some m => exact hc
  | none =>
    rw [coh_some]
    obtain ⟨h1, h2⟩ := foldl_lowAdd E kvs [] (by simp)
    exact ⟨h1, fun l k => by simp only [initCaseless]; rw [h2]; simp [lowIn_nil]⟩

theorem findKey_coh {E : Env} {cl : Bool} {kvs : List Ent} {low : Low} {key : Bytes} (hc : Coh E kvs low) : Coh E kvs (findKey E cl kvs low key).1 := by
  unfold findKey
  split
  · exact hc
  · split
    · exact hc
    · simp only
      split <;> exact coh_init hc

theorem firstPresent_some {kvs : List Ent} {ks k} (h : firstPresent kvs ks = some k) : k ∈ ks ∧ k ∈ keys kvs := by
  induction ks with
  | nil => simp [firstPresent] at h
  | cons x xs ih =>
    simp only [firstPresent] at h
    split at h
    · simp at h; subst h; rename_i h; exact ⟨by simp, lookup_isSome.1 h⟩
    · exact ⟨by simp [(ih h).1], (ih h).2⟩

theorem firstPresent_none {kvs : List Ent} {ks} (h : firstPresent kvs ks = none) : ∀ k ∈ ks, k ∉ keys kvs := by
  induction ks with
  | nil => simp
  | cons x xs ih =>
    simp only [firstPresent] at h
    split at h
    · simp at h
    · rename_i hx
      intro k hk
      simp at hk
      rcases hk with rfl | hk
      · exact fun hh => hx (lookup_isSome.2 hh)
      · exact ih h k hk

/-- what a lookup finds -/
theorem findKey_true {E : Env} {kvs : List Ent} {low : Low} (hc : Coh E kvs low) (key : Bytes) :
    (key ∈ keys kvs ∧ (findKey E true kvs low key).2 = some key) ∨
    (key ∉ keys kvs ∧ ∃ k, (findKey E true kvs low key).2 = some k ∧ k ∈ keys kvs ∧ E.toLower k = E.toLower key) ∨
    ((findKey E true kvs low key).2 = none ∧ ∀ k ∈ keys kvs, E.toLower k ≠ E.toLower key) := by
  unfold findKey
  split
  · rename_i h
    exact .inl ⟨lookup_isSome.1 h, rfl⟩
  · rename_i hk
    have hk : key ∉ keys kvs := fun h => hk (lookup_isSome.2 h)
    rw [if_neg (by simp)]
    simp only
    have hi := coh_some.1 (coh_init hc)
    split
    · rename_i hg
      refine .inr (.inr ⟨rfl, fun k hk' he => ?_⟩)
      obtain ⟨ks, h1, -⟩ := lowGet_of_in hi.1 ((hi.2 _ _).2 ⟨hk', he⟩)
      rw [hg] at h1; cases h1
    · rename_i ks hg
      simp only
      cases hf : firstPresent kvs ks with
      | some k =>
        obtain ⟨h1, h2⟩ := firstPresent_some hf
        refine .inr (.inl ⟨hk, k, rfl, h2, ?_⟩)
        exact ((hi.2 (E.toLower key) k).1 ⟨ks, lowGet_some hg, h1⟩).2
      | none =>
        refine .inr (.inr ⟨rfl, fun k hk' he => ?_⟩)
        obtain ⟨ks', h1, h2⟩ := lowGet_of_in hi.1 ((hi.2 _ _).2 ⟨hk', he⟩)
        rw [hg] at h1; cases h1
        exact firstPresent_none hf k h2 hk'

theorem findKey_false {E : Env} {kvs : List Ent} {low : Low} (key : Bytes) :
    findKey E false kvs low key = (low, if (lookup key kvs).isSome then some key else none) := by
  unfold findKey
  split <;> rfl

/-! ## instances -/

theorem closed_good (E : Env) : Closed E (GoodNode E) where
  put := by
    intro v s d h
    match v, s, h with
    | .obj n kvs low, .key k, h =>
      have hk : kvs.map Ent.key = (putKey k d kvs).map Ent.key := (keys_putKey k d kvs).symm
      refine ⟨?_, coh_keys (kvs := kvs) (fun k' => by rw [keys_putKey]) h.2⟩
      rw [← hk]; exact h.1
    | .obj n kvs low, .idx k, h => exact h
    | .arr xs, .key k, h => trivial
    | .arr xs, .idx i, h => trivial
    | .nilp, _, _ => trivial
    | .notExist, _, _ => trivial
    | .str _, _, _ => trivial
    | .num _ _, _, _ => trivial
    | .bool _, _, _ => trivial
    | .null, _, _ => trivial
  arr := fun _ => trivial
  obj0 := ⟨by simp, trivial⟩
  setKey := fun n kvs low k c h => ⟨nodup_assign h.1, coh_add k _ c h.2⟩
  del := fun n kvs low k h => ⟨nodup_erase h.1, coh_del k h.1 h.2⟩
  low := fun cl n kvs low k h => ⟨h.1, findKey_coh h.2⟩

theorem closed_solid (E : Env) : Closed E Solid where
  put := by
    intro v s d h
    match v, s, h with
    | .obj n kvs low, .key k, h => exact ⟨nofun, nofun⟩
    | .obj n kvs low, .idx k, h => exact h
    | .arr xs, .key k, h => exact h
    | .arr xs, .idx i, h => exact ⟨nofun, nofun⟩
    | .nilp, _, h => exact h
    | .notExist, _, h => exact h
    | .str _, _, h => exact h
    | .num _ _, _, h => exact h
    | .bool _, _, h => exact h
    | .null, _, h => exact h
  arr := fun _ => ⟨nofun, nofun⟩
  obj0 := ⟨nofun, nofun⟩
  setKey := fun n kvs low k c h => ⟨nofun, nofun⟩
  del := fun n kvs low k h => ⟨nofun, nofun⟩
  low := fun cl n kvs low k h => ⟨nofun, nofun⟩

/-- two predicates at once -/
theorem Closed.and {E : Env} {P Q : V → Prop} (hP : Closed E P) (hQ : Closed E Q) : Closed E (fun v => P v ∧ Q v) where
  put := fun v s d h => ⟨hP.put v s d h.1, hQ.put v s d h.2⟩
  arr := fun xs => ⟨hP.arr xs, hQ.arr xs⟩
  obj0 := ⟨hP.obj0, hQ.obj0⟩
  setKey := fun n kvs low k c h => ⟨hP.setKey n kvs low k c h.1, hQ.setKey n kvs low k c h.2⟩
  del := fun n kvs low k h => ⟨hP.del n kvs low k h.1, hQ.del n kvs low k h.2⟩
  low := fun cl n kvs low k h => ⟨hP.low cl n kvs low k h.1, hQ.low cl n kvs low k h.2⟩

theorem good_nodup {E : Env} (n kvs low) (h : GoodNode E (.obj n kvs low)) : (keys kvs).Nodup := h.1

end JV
