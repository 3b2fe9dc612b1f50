import Verif.Model.Modify
/-! Entry lists as finite maps. -/
namespace JV

/-- the keys of an object -/
def keys (kvs : List Ent) : List Bytes := kvs.map Ent.key

@[simp] theorem keys_nil : keys [] = [] := rfl
@[simp] theorem keys_cons (e : Ent) (es : List Ent) : keys (e :: es) = e.key :: keys es := rfl

theorem lookup_assign (k : Bytes) (e : Ent) (kvs : List Ent) : lookup k (assign e kvs) = if e.key = k then some e else lookup k kvs := by
  induction kvs with
  | nil => simp [assign, lookup]
  | cons x xs ih =>
    unfold assign
    by_cases h : x.key = e.key
    · simp only [h, if_true, lookup]
      split <;> simp_all
    · simp only [h, if_false, lookup, ih]
      split <;> split <;> simp_all

theorem lookup_some_key {k : Bytes} {kvs : List Ent} {e : Ent} (h : lookup k kvs = some e) : e.key = k ∧ e ∈ kvs := by
  induction kvs with
  | nil => simp [lookup] at h
  | cons x xs ih =>
    unfold lookup at h
    split at h
    · simp at h; subst h; simp [*]
    · have := ih h; simp [this]

theorem lookup_isSome {k : Bytes} {kvs : List Ent} : (lookup k kvs).isSome = true ↔ k ∈ keys kvs := by
  induction kvs with
  | nil => simp [lookup]
  | cons x xs ih =>
    unfold lookup
    split
    · simp [*]
    · rw [ih]; simp; intro h; exact absurd h.symm ‹_›

theorem lookup_none {k : Bytes} {kvs : List Ent} : lookup k kvs = none ↔ k ∉ keys kvs := by
  rw [← lookup_isSome]; cases lookup k kvs <;> simp

theorem lookup_mem {kvs : List Ent} (hn : (keys kvs).Nodup) {e : Ent} (h : e ∈ kvs) : lookup e.key kvs = some e := by
  induction kvs with
  | nil => simp at h
  | cons x xs ih =>
    simp only [keys_cons, List.nodup_cons] at hn
    rcases List.mem_cons.1 h with rfl | h
    · simp [lookup]
    · unfold lookup
      rw [if_neg, ih hn.2 h]
      intro hx
      exact hn.1 (by rw [hx]; exact List.mem_map_of_mem h)

theorem keys_assign (e : Ent) (kvs : List Ent) : keys (assign e kvs) = if e.key ∈ keys kvs then keys kvs else keys kvs ++ [e.key] := by
  induction kvs with
  | nil => simp [assign]
  | cons x xs ih =>
    unfold assign
    by_cases h : x.key = e.key
    · simp [h]
    · simp only [h, if_false, keys_cons, ih, List.mem_cons, Ne.symm h, false_or]
      split <;> simp

theorem nodup_assign {e : Ent} {kvs : List Ent} (h : (keys kvs).Nodup) : (keys (assign e kvs)).Nodup := by
  rw [keys_assign]
  split
  · exact h
  · rw [List.nodup_append]; simp [h]; intro a ha hae; exact absurd (hae ▸ ha) ‹_›

theorem mem_assign {e x : Ent} {kvs : List Ent} (h : x ∈ assign e kvs) : x = e ∨ x ∈ kvs := by
  induction kvs with
  | nil => simpa [assign] using h
  | cons y ys ih =>
    unfold assign at h
    split at h
    · rcases List.mem_cons.1 h with h | h <;> simp [h]
    · rcases List.mem_cons.1 h with h | h
      · simp [h]
      · rcases ih h with h | h <;> simp [h]

theorem length_assign (e : Ent) (kvs : List Ent) : (assign e kvs).length = if e.key ∈ keys kvs then kvs.length else kvs.length + 1 := by
  have := congrArg List.length (keys_assign e kvs)
  simp only [keys, List.length_map] at this
  rw [this]; simp only [keys]
  by_cases h : e.key ∈ kvs.map Ent.key <;> simp only [h, if_true, if_false] <;> simp

theorem lookup_erase (k k' : Bytes) (kvs : List Ent) (hn : (keys kvs).Nodup) : lookup k (erase k' kvs) = if k' = k then none else lookup k kvs := by
  induction kvs with
  | nil => simp [erase, lookup]
  | cons x xs ih =>
    simp only [keys_cons, List.nodup_cons] at hn
    unfold erase
    by_cases h : x.key = k'
    · simp only [h, if_true, lookup]
      by_cases h2 : k' = k
      · simp only [h2, if_true]; rw [lookup_none]; rw [← h2, ← h]; exact hn.1
      · simp [h2]
    · simp only [h, if_false, lookup, ih hn.2]
      split <;> split <;> simp_all

theorem keys_erase (k : Bytes) (kvs : List Ent) : keys (erase k kvs) = (keys kvs).erase k := by
  induction kvs with
  | nil => rfl
  | cons x xs ih =>
    unfold erase
    by_cases h : x.key = k
    · simp [h]
    · simp only [h, if_false, keys_cons, ih]; rw [List.erase_cons_tail]; simpa using h

theorem nodup_erase {k : Bytes} {kvs : List Ent} (h : (keys kvs).Nodup) : (keys (erase k kvs)).Nodup := by
  rw [keys_erase]; exact h.erase k

theorem length_erase {k : Bytes} {kvs : List Ent} (h : k ∈ keys kvs) : (erase k kvs).length + 1 = kvs.length := by
  have := congrArg List.length (keys_erase k kvs)
  rw [List.length_erase_of_mem h] at this
  simp only [keys, List.length_map] at this
  have h2 : 0 < kvs.length := by
    cases kvs with
    | nil => simp at h
    | cons _ _ => simp
  omega

theorem mem_erase {k : Bytes} {x : Ent} {kvs : List Ent} (h : x ∈ erase k kvs) : x ∈ kvs := by
  induction kvs with
  | nil => simp [erase] at h
  | cons y ys ih =>
    unfold erase at h
    split at h
    · simp [h]
    · rcases List.mem_cons.1 h with h | h
      · simp [h]
      · simp [ih h]

theorem keys_putKey (k : Bytes) (c : V) (kvs : List Ent) : keys (putKey k c kvs) = keys kvs := by
  induction kvs with
  | nil => rfl
  | cons x xs ih =>
    unfold putKey
    split <;> simp [ih]

theorem lookup_putKey (k k' : Bytes) (c : V) (kvs : List Ent) :
    lookup k (putKey k' c kvs) = if k' = k then (lookup k kvs).map (fun e => ⟨e.key, e.id, c⟩) else lookup k kvs := by
  induction kvs with
  | nil => simp [putKey, lookup]
  | cons x xs ih =>
    unfold putKey
    by_cases h : x.key = k'
    · subst h
      by_cases h2 : x.key = k <;> simp [lookup, h2]
    · simp only [h, if_false, lookup, ih]
      split <;> split <;> simp_all

theorem putKey_same (k : Bytes) (e : Ent) (kvs : List Ent) (h : lookup k kvs = some e) : putKey k e.v kvs = kvs := by
  induction kvs with
  | nil => rfl
  | cons x xs ih =>
    unfold lookup at h
    unfold putKey
    split
    · rename_i hx
      rw [if_pos hx] at h
      simp at h
      subst h
      rw [Ent.eta]
    · rename_i hx
      rw [if_neg hx] at h
      rw [ih h]

end JV
