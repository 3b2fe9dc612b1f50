import Verif.Spec.Denote
import Verif.Proofs.Strict
import Verif.Proofs.Maps
/-! The value built for a document denotes it. -/
namespace JV
open Spec

theorem get_key (E : Env) (n : BitVec 32) (kvs : List Ent) (low : Low) (k : Bytes) :
    get E (.obj n kvs low) [.str k] = match lookup k kvs with | some e => .ok e.v | none => .err .notFound := by
  unfold get getC resolve resolve1 locate anyToString findKey
  match h : lookup k kvs with
  | none => simp [h, fetch]
  | some e => simp [h, fetch, V.at, V.child]

theorem lastOf_none {k : Bytes} {ms : List Mem} : lastOf k ms = none ↔ ∀ m ∈ ms, m.key ≠ k := by
  induction ms with
  | nil => simp [lastOf]
  | cons m ms ih =>
    obtain ⟨k', v⟩ := m
    unfold lastOf
    match h : lastOf k ms with
    | some w =>
      simp only [reduceCtorEq, false_iff]
      rw [h] at ih
      simp only [reduceCtorEq, false_iff] at ih
      intro hh
      exact ih (fun m hm => hh m (by simp [hm]))
    | none =>
      rw [h] at ih
      have ih := ih.1 rfl
      simp only [List.mem_cons, forall_eq_or_imp, Mem.key]
      constructor
      · intro h2
        refine ⟨?_, ih⟩
        intro he; simp [he] at h2
      · rintro ⟨h1, -⟩
        simp [h1]

/-- members of the object built for `ms` on top of `st` -/
theorem toVM_lookup (E : Env) (ms : List Mem) (st : OSt) (k : Bytes) :
    match lastOf k ms with
    | some j => ∃ i, lookup k (toVM E ms st).kvs = some ⟨k, i, toV E j⟩
    | none => lookup k (toVM E ms st).kvs = lookup k st.kvs := by
  induction ms generalizing st with
  | nil => simp [lastOf, toVM]
  | cons m ms ih =>
    obtain ⟨k', v⟩ := m
    have ih := ih (setMember st k' (toV E v))
    unfold lastOf toVM
    match h : lastOf k ms with
    | some w => rw [h] at ih; simpa using ih
    | none =>
      rw [h] at ih
      simp only at ih ⊢
      by_cases hk : k' = k
      · simp only [hk, if_true]
        refine ⟨st.incr + 1, ?_⟩
        subst hk
        rw [ih]
        simp [setMember, lookup_assign]
      · simp only [hk, if_false]
        rw [ih]
        simp [setMember, lookup_assign, hk]

theorem toVM_nodup (E : Env) (ms : List Mem) (st : OSt) (h : (keys st.kvs).Nodup) : (keys (toVM E ms st).kvs).Nodup := by
  induction ms generalizing st with
  | nil => exact h
  | cons m ms ih =>
    obtain ⟨k', v⟩ := m
    exact ih _ (nodup_assign h)

theorem ofInt_toInt {i : Int} (h1 : -2 ^ 63 ≤ i) (h2 : i < 2 ^ 63) : (BitVec.ofInt 64 i).toInt = i := by
  rw [BitVec.toInt_ofInt]
  simp only [Int.bmod_def]
  split <;> omega

theorem intNum_denotes (E : Env) (neg : Bool) (n : Nat) :
    let i : Int := if neg then -(n : Int) else n
    (intNum E neg n).negative = neg ∧ (intNum E neg n).floated = false ∧
    (-2 ^ 63 ≤ i → i < 2 ^ 63 → (intNum E neg n).i64.toInt = i) ∧ (0 ≤ i → i < 2 ^ 64 → ((intNum E neg n).u64.toNat : Int) = i) := by
  cases neg
  · simp only [Bool.false_eq_true, if_false, intNum]
    refine ⟨trivial, trivial, ?_, ?_⟩
    · intro h1 h2
      have := ofInt_toInt h1 h2
      simpa using this
    · intro h1 h2
      simp
      omega
  · simp only [if_true, intNum]
    refine ⟨trivial, trivial, fun h1 h2 => ofInt_toInt h1 h2, ?_⟩
    intro h1 h2
    have : n = 0 := by omega
    subst this
    simp

theorem numDenotes {E : Env} {t : Bytes} (hok : NumOK E t) : NumDenotes E t (numOf E t) := by
  refine ⟨fun neg ip h => ?_, fun neg ip h => ?_⟩
  · have h1 := hok.1 neg ip h
    have h2 := (jint_num (E := E) h h1.1 h1.2).2
    rw [h2]
    exact intNum_denotes E neg (decVal ip)
  · have h1 := hok.2 neg ip h
    match hf : E.parseFloat t with
    | none => exact absurd hf h1.1
    | some f =>
      rw [(jfloat_num h h1.2 hf).2]
      simp [floatNum]

theorem toVL_getElem (E : Env) (xs : List J) (i : Nat) : (toVL E xs)[i]? = (xs[i]?).map (toV E) := by
  induction xs generalizing i with
  | nil => simp [toVL]
  | cons x xs ih =>
    cases i with
    | zero => simp [toVL]
    | succ i => simpa [toVL] using ih i

theorem toVL_length (E : Env) (xs : List J) : (toVL E xs).length = xs.length := by
  induction xs with
  | nil => rfl
  | cons x xs ih => simp [toVL, ih]

theorem AllNumsL_get {P : Bytes → Prop} {xs : List J} (h : AllNumsL P xs) (i : Nat) (x : J) (hx : xs[i]? = some x) : x.AllNums P := by
  induction xs generalizing i with
  | nil => simp at hx
  | cons y ys ih =>
    cases i with
    | zero => simp at hx; subst hx; exact h.1
    | succ i => exact ih h.2 i (by simpa using hx)

theorem AllNumsM_last {P : Bytes → Prop} {ms : List Mem} (h : AllNumsM P ms) (k : Bytes) (j : J) (hx : lastOf k ms = some j) : j.AllNums P := by
  induction ms with
  | nil => simp [lastOf] at hx
  | cons m ms ih =>
    obtain ⟨k', v⟩ := m
    unfold lastOf at hx
    split at hx
    · simp at hx; subst hx; exact ih h.2 ‹_›
    · split at hx
      · simp at hx; subst hx; exact h.1
      · simp at hx

theorem lastOf_sizeOf {k : Bytes} {ms : List Mem} {j : J} (h : lastOf k ms = some j) : sizeOf j < sizeOf ms := by
  induction ms with
  | nil => simp [lastOf] at h
  | cons m ms ih =>
    obtain ⟨k', v⟩ := m
    unfold lastOf at h
    split at h
    · simp at h; subst h; have := ih ‹_›; simp; omega
    · split at h
      · simp at h; subst h; simp; omega
      · simp at h

theorem toV_denotes (E : Env) (N : Bytes → Num → Prop) (j : J) (hok : j.AllNums (fun t => N t (numOf E t))) : Denotes E N j (toV E j) := by
  match j, hok with
  | .null, _ => exact .null
  | .bool b, _ => exact .bool b
  | .num t, h => exact .num t _ h
  | .str s, _ => exact .str s
  | .arr xs, h =>
    simp only [toV]
    refine .arr xs _ (toVL_length E xs) (fun i x w hx hw => ?_)
    rw [toVL_getElem, hx] at hw
    simp at hw
    subst hw
    have : sizeOf x < sizeOf xs := List.sizeOf_lt_of_mem (List.mem_of_getElem? hx)
    exact toV_denotes E N x (AllNumsL_get h i x hx)
  | .obj ms, h =>
    have hl := toVM_lookup E ms {}
    have hn := toVM_nodup E ms {} (by simp)
    simp only [toV]
    refine .obj ms _ (fun k => match lastOf k ms with | some j => toV E j | none => .notExist) (keys (toVM E ms {}).kvs) ?_ ?_ ?_ ?_ hn ?_ ?_
    · rfl
    · intro k hk
      have := hl k
      rw [hk] at this
      rw [get_key, this]
      simp [lookup]
    · intro k j hk
      have := hl k
      rw [hk] at this
      obtain ⟨i, hi⟩ := this
      rw [get_key, hi]
      simp [hk]
    · intro k j hk
      have := lastOf_sizeOf hk
      simp only [hk]
      exact toV_denotes E N j (AllNumsM_last h k j hk)
    · intro k
      rw [← lookup_isSome]
      have := hl k
      match hk : lastOf k ms with
      | none =>
        rw [hk] at this
        rw [this]
        have := lastOf_none.1 hk
        simp [lookup]
        exact this
      | some j =>
        rw [hk] at this
        obtain ⟨i, hi⟩ := this
        rw [hi]
        simp
        apply Classical.byContradiction
        intro hh
        have := (lastOf_none (k := k) (ms := ms)).2 (fun m hm hmk => hh ⟨m, hm, hmk⟩)
        rw [hk] at this
        simp at this
    · simp [len, keys]
termination_by sizeOf j
decreasing_by
  all_goals simp_wf
  all_goals omega

mutual
theorem AllNums_mono {P Q : Bytes → Prop} (h : ∀ t, P t → Q t) : ∀ j : J, j.AllNums P → j.AllNums Q
  | .num t, hp => h t hp
  | .arr xs, hp => AllNumsL_mono h xs hp
  | .obj ms, hp => AllNumsM_mono h ms hp
  | .null, _ => trivial
  | .bool _, _ => trivial
  | .str _, _ => trivial
theorem AllNumsL_mono {P Q : Bytes → Prop} (h : ∀ t, P t → Q t) : ∀ xs : List J, AllNumsL P xs → AllNumsL Q xs
  | [], _ => trivial
  | x :: xs, hp => ⟨AllNums_mono h x hp.1, AllNumsL_mono h xs hp.2⟩
theorem AllNumsM_mono {P Q : Bytes → Prop} (h : ∀ t, P t → Q t) : ∀ ms : List Mem, AllNumsM P ms → AllNumsM Q ms
  | [], _ => trivial
  | ⟨_, v⟩ :: ms, hp => ⟨AllNums_mono h v hp.1, AllNumsM_mono h ms hp.2⟩
end

mutual
theorem AllNums_true : ∀ j : J, j.AllNums (fun _ => True)
  | .num _ => trivial
  | .arr xs => AllNumsL_true xs
  | .obj ms => AllNumsM_true ms
  | .null => trivial
  | .bool _ => trivial
  | .str _ => trivial
theorem AllNumsL_true : ∀ xs : List J, AllNumsL (fun _ => True) xs
  | [] => trivial
  | x :: xs => ⟨AllNums_true x, AllNumsL_true xs⟩
theorem AllNumsM_true : ∀ ms : List Mem, AllNumsM (fun _ => True) ms
  | [] => trivial
  | ⟨_, v⟩ :: ms => ⟨AllNums_true v, AllNumsM_true ms⟩
end

end JV
