import Verif.Spec.Predict
import Verif.Proofs.Pool
/-! Invariants of the goroutines sharing the size predictor. -/
namespace JV

/-! ### facts that hold in every reachable state -/

/-- what is known of a call wherever it is -/
def CallOk (E : Env) (th : Thread) : Prop :=
  th.input ≠ [] ∧ th.cnt ≤ th.input.length ∧
  match th.pc with
  | .start | .readCalc | .panicked => True
  | .release n r => r = (parseIn E th.cnt th.input).1 ∧ n = (parseIn E th.cnt th.input).2.actual
  | .store _ r | .storeBpv _ r | .storePer _ r | .done r => r = (parseIn E th.cnt th.input).1

theorem enter_ok (E : Env) (th : Thread) (per : Int) (h0 : th.input ≠ []) (hc : th.cnt ≤ th.input.length) :
    CallOk E (enter E th per) ∧ (enter E th per).input = th.input := by
  unfold enter
  split
  · exact ⟨⟨h0, hc, trivial⟩, rfl⟩
  · simp only
    split
    · exact ⟨⟨h0, hc, trivial⟩, rfl⟩
    · rename_i hp hn
      refine ⟨⟨h0, ?_, rfl, rfl⟩, rfl⟩
      simp only
      have h1 : (Int.tdiv th.input.length per).natAbs = th.input.length / per.natAbs := by
        rw [Int.natAbs_tdiv]; rfl
      have h2 : (Int.tdiv th.input.length per).toNat = (Int.tdiv th.input.length per).natAbs := by omega
      rw [h2, h1]
      exact Nat.div_le_self _ _

theorem stepThread_ok (E : Env) {sh sh' : Shared} {th th' : Thread} (h : CallOk E th) (hs : stepThread E sh th = some (sh', th')) :
    CallOk E th' ∧ th'.input = th.input := by
  obtain ⟨h0, hc, hp⟩ := h
  unfold stepThread at hs
  split at hs
  · split at hs
    · simp only [Option.some.injEq, Prod.mk.injEq] at hs
      obtain ⟨-, rfl⟩ := hs
      exact enter_ok E th _ h0 hc
    · simp only [Option.some.injEq, Prod.mk.injEq] at hs
      obtain ⟨-, rfl⟩ := hs
      exact ⟨⟨h0, hc, trivial⟩, rfl⟩
  · split at hs
    · simp only [Option.some.injEq, Prod.mk.injEq] at hs
      obtain ⟨-, rfl⟩ := hs
      exact ⟨⟨h0, hc, trivial⟩, rfl⟩
    · simp only [Option.some.injEq, Prod.mk.injEq] at hs
      obtain ⟨-, rfl⟩ := hs
      exact enter_ok E th _ h0 hc
  · rename_i n r hpc
    simp only [Option.some.injEq, Prod.mk.injEq] at hs
    obtain ⟨-, rfl⟩ := hs
    simp only [hpc] at hp
    unfold accumulate
    simp only
    split
    · exact ⟨⟨h0, hc, hp.1⟩, rfl⟩
    · split
      · exact ⟨⟨h0, hc, trivial⟩, rfl⟩
      · exact ⟨⟨h0, hc, hp.1⟩, rfl⟩
  all_goals
    first
    | (simp at hs; done)
    | (rename_i r hpc
       simp only [Option.some.injEq, Prod.mk.injEq] at hs
       obtain ⟨-, rfl⟩ := hs
       simp only [hpc] at hp
       exact ⟨⟨h0, hc, hp⟩, rfl⟩)

theorem mem_set_cases {α : Type} {l : List α} {i : Nat} {a x : α} (h : x ∈ l.set i a) : x = a ∨ x ∈ l := by
  rcases List.mem_or_eq_of_mem_set h with h | h
  · exact .inr h
  · exact .inl h

theorem reach_ok {E : Env} {p : Proc} (h : Reach E p) : ∀ th ∈ p.threads, CallOk E th := by
  induction h with
  | init => simp [procInit]
  | step _ hs ih =>
    cases hs with
    | call b hb =>
      intro th hth
      simp only [List.mem_append, List.mem_singleton] at hth
      rcases hth with h | h
      · exact ih th h
      · subst h; exact ⟨hb, by simp, trivial⟩
    | move i th th' sh' hi hs =>
      intro x hx
      simp only at hx
      rcases mem_set_cases hx with h | h
      · subst h; exact (stepThread_ok E (ih th (List.mem_of_getElem? hi)) hs).1
      · exact ih x h

/-! ### the words -/

/-- the word `calcStorage` as a pair -/
structure Word (w : BitVec 64) (T N : Nat) : Prop where
  eq : w.toNat = T * 2^32 + N
  num : N < 2^32
  total : T < 2^32

theorem Word.calcTotal {w : BitVec 64} {T N : Nat} (h : Word w T N) : (calcTotal w).toNat = T := by
  have := h.eq; have := h.num
  simp only [JV.calcTotal, BitVec.toNat_ushiftRight, Nat.shiftRight_eq_div_pow]
  omega

theorem Word.calcNum {w : BitVec 64} {T N : Nat} (h : Word w T N) : (calcNum w).toNat = N := by
  have := h.eq; have := h.num
  have e : (0xFFFFFFFF#64).toNat = 2^32 - 1 := rfl
  simp only [JV.calcNum, BitVec.toNat_and, e, Nat.and_two_pow_sub_one_eq_mod]
  omega

theorem word_pack (a b : BitVec 64) (ha : a.toNat < 2^32) (hb : b.toNat < 2^32) : Word ((a <<< 32) + b) a.toNat b.toNat := by
  refine ⟨?_, hb, ha⟩
  simp only [BitVec.toNat_add, BitVec.toNat_shiftLeft, Nat.shiftLeft_eq]
  omega

/-! ### no panic while the texts that are no containers stay below 2 GiB in total -/

theorem opens_requests {E : Env} {cnt : Nat} {b : Bytes} (h : Spec.opensContainer b = true) : 1 ≤ (parseIn E cnt b).2.actual := by
  have hsk : ∃ c t, skipBlanks b = c :: t ∧ (c = 0x7B ∨ c = 0x5B) := by
    induction b with
    | nil => simp [Spec.opensContainer] at h
    | cons c t ih =>
      simp only [Spec.opensContainer] at h
      simp only [skipBlanks]
      by_cases hc : c = 0x20 ∨ c = 0x0D ∨ c = 0x0A ∨ c = 0x09 ∨ c = 0x08
      · rw [if_pos hc] at h
        have : isBlank c = true := by simp only [isBlank, Bool.or_eq_true, beq_iff_eq]; rcases hc with h | h | h | h | h <;> simp [h]
        rw [if_pos this]; exact ih h
      · rw [if_neg hc] at h
        have : ¬ isBlank c = true := by
          simp only [isBlank, Bool.or_eq_true, beq_iff_eq]
          intro h'; apply hc
          rcases h' with (((h | h) | h) | h) | h <;> simp [h]
        rw [if_neg this]
        exact ⟨c, t, rfl, by simpa using h⟩
  obtain ⟨c, t, hs, hc⟩ := hsk
  have hlen := skipBlanks_length b
  rw [hs] at hlen; simp only [List.length_cons] at hlen
  unfold parseIn unmarshalWithIterN
  rw [hs]
  simp only
  have hg := get_later (Pool.new cnt)
  have key : (Pool.new cnt).actual + 1 ≤ (parseValueN E (b.length + 1) c t (Pool.new cnt)).2.actual := by
    unfold parseValueN
    rcases hc with h | h
    · rw [if_pos h]
      have := ((loopsN_fine E (b.length + 1)).2 t _ {} _ (by omega) (owns_get (Pool.new cnt))).1.2.2.1
      omega
    · subst h
      rw [if_neg (by decide), if_pos rfl]
      have := ((loopsN_fine E (b.length + 1)).1 t _ [] _ (by omega) (owns_get (Pool.new cnt))).1.2.2.1
      omega
  revert key
  match parseValueN E (b.length + 1) c t (Pool.new cnt) with
  | (.ok r, q) => intro key; simp only [PR.andThen]; split <;> simp only at key ⊢ <;> omega
  | (.err e, q) => intro key; simp only [PR.andThen] at key ⊢; omega
  | (.panic, q) => intro key; simp only [PR.andThen] at key ⊢; omega
  | (.diverge, q) => intro key; simp only [PR.andThen] at key ⊢; omega

/-- bytes of the texts without container whose size has been added already -/
def added (th : Thread) : Nat :=
  match th.pc with
  | .start | .readCalc | .release _ _ | .panicked => 0
  | _ => Spec.bareBytes th.input

def addedAll (l : List Thread) : Nat := (l.map added).sum

/-- bounds of a word after `Z` bytes of bare texts were added -/
def WordOk (Z : Nat) (w : BitVec 64) : Prop := ∃ T N, Word w T N ∧ 1 ≤ N ∧ N ≤ T ∧ T < 2^31 + Z

def PerOk (Z : Nat) (w : BitVec 64) : Prop := 1 ≤ w.toNat ∧ w.toNat < 2^31 + Z

def PcOk (Z : Nat) : Pc → Prop
  | .start | .readCalc | .release _ _ | .done _ => True
  | .store x _ => WordOk Z x
  | .storeBpv per _ | .storePer per _ => PerOk Z per
  | .panicked => False

theorem WordOk.mono {Z Z' : Nat} {w : BitVec 64} (h : WordOk Z w) (hz : Z ≤ Z') : WordOk Z' w := by
  obtain ⟨T, N, h1, h2, h3, h4⟩ := h
  exact ⟨T, N, h1, h2, h3, by omega⟩

theorem PerOk.mono {Z Z' : Nat} {w : BitVec 64} (h : PerOk Z w) (hz : Z ≤ Z') : PerOk Z' w := ⟨h.1, by have := h.2; omega⟩

theorem PcOk.mono {Z Z' : Nat} {pc : Pc} (h : PcOk Z pc) (hz : Z ≤ Z') : PcOk Z' pc := by
  cases pc <;> simp only [PcOk] at h ⊢
  · exact h.mono hz
  · exact h.mono hz
  · exact h.mono hz

theorem sum_set_added {l : List Thread} {i : Nat} {th th' : Thread} (h : l[i]? = some th) :
    addedAll (l.set i th') + added th = addedAll l + added th' := by
  induction l generalizing i with
  | nil => simp at h
  | cons x l ih =>
    cases i with
    | zero => simp at h; subst h; simp [addedAll]; omega
    | succ i => simp at h; have := ih h; simp [addedAll] at this ⊢; omega

theorem added_le (th : Thread) : added th ≤ Spec.bareBytes th.input := by
  unfold added; split <;> omega

theorem addedAll_le (p : Proc) : addedAll p.threads ≤ Spec.totalBare p := by
  unfold addedAll Spec.totalBare
  induction p.threads with
  | nil => simp
  | cons x l ih => simp; have := added_le x; omega

/-- the prediction is positive -/
theorem enter_pc (E : Env) (th : Thread) (per : Int) (hp : 0 < per) :
    ∃ n r, (enter E th per).pc = .release n r := by
  unfold enter
  rw [if_neg (by omega)]
  have : 0 ≤ Int.tdiv th.input.length per := Int.tdiv_nonneg (Int.natCast_nonneg _) (by omega)
  simp only
  rw [if_neg (by omega)]
  exact ⟨_, _, rfl⟩

theorem accumulate_ok {E : Env} {th : Thread} {v : BitVec 64} {n : Nat} {r : R NV} {Z : Nat} (hc : CallOk E th)
    (hpc : th.pc = .release n r) (hlen : th.input.length < 2^31) (hv : WordOk Z v) (hz : Z + Spec.bareBytes th.input ≤ 2^31) :
    PcOk (Z + Spec.bareBytes th.input) (accumulate th v n r).pc ∧ added (accumulate th v n r) = Spec.bareBytes th.input := by
  obtain ⟨h0, hcnt, hr⟩ := hc
  rw [hpc] at hr
  obtain ⟨-, hn⟩ := hr
  have hn1 : n ≤ th.input.length := by rw [hn]; exact (parseIn_fine E _ _).2.1
  have hn2 : Spec.opensContainer th.input = true → 1 ≤ n := by intro h; rw [hn]; exact opens_requests h
  obtain ⟨T, N, hw, hN, hNT, hT⟩ := hv
  have hT32 := hw.total
  have hlenpos : 1 ≤ th.input.length := by
    cases hi : th.input with
    | nil => exact absurd hi h0
    | cons _ _ => simp
  have ht : (BitVec.ofNat 64 th.input.length + calcTotal v).toNat = th.input.length + T := by
    rw [BitVec.toNat_add, hw.calcTotal, BitVec.toNat_ofNat]; omega
  have hm : (BitVec.ofNat 64 n + calcNum v).toNat = n + N := by
    rw [BitVec.toNat_add, hw.calcNum, BitVec.toNat_ofNat]; omega
  unfold accumulate
  simp only
  split
  · rename_i hlt
    have hlt' : th.input.length + T < 0x7FFFFFFF := by
      have := BitVec.lt_def.mp hlt
      rw [ht] at this; simpa using this
    refine ⟨?_, by simp [added]⟩
    simp only [PcOk]
    have hwp := word_pack (BitVec.ofNat 64 th.input.length + calcTotal v) (BitVec.ofNat 64 n + calcNum v)
      (by rw [ht]; omega) (by rw [hm]; omega)
    rw [ht, hm] at hwp
    exact ⟨_, _, hwp, by omega, by omega, by omega⟩
  · rename_i hlt
    have hne : ¬ (BitVec.ofNat 64 n + calcNum v = 0#64) := by
      intro h
      have := congrArg BitVec.toNat h
      rw [hm] at this; simp at this; omega
    rw [if_neg hne]
    refine ⟨?_, by simp [added]⟩
    simp only [PcOk, PerOk]
    rw [BitVec.toNat_udiv, ht, hm]
    refine ⟨(Nat.one_le_div_iff (by omega)).mpr (by omega), ?_⟩
    unfold Spec.bareBytes at hz ⊢
    by_cases ho : Spec.opensContainer th.input = true
    · have := hn2 ho
      rw [if_pos ho]
      have h2 : (th.input.length + T) / (n + N) ≤ (th.input.length + T) / 2 := Nat.div_le_div_left (by omega) (by omega)
      omega
    · rw [if_neg ho]
      have := Nat.div_le_self (th.input.length + T) (n + N)
      omega

structure ProcOk (p : Proc) : Prop where
  store : WordOk (addedAll p.threads) p.sh.store
  bpv : p.sh.bpv.toNat < 2^32
  pcs : ∀ th ∈ p.threads, PcOk (addedAll p.threads) th.pc

theorem procOk_reach {E : Env} {p : Proc} (h : Reach E p) (hlen : ∀ th ∈ p.threads, th.input.length < 2^31)
    (hbare : Spec.totalBare p ≤ 2^31) : ProcOk p := by
  induction h with
  | init =>
    refine ⟨⟨16, 1, ⟨by decide, by decide, by decide⟩, by decide, by decide, by decide⟩, by decide, by simp [procInit]⟩
  | @step p q hr hs ih =>
    cases hs with
    | call b hb =>
      have hz : addedAll (p.threads ++ [({ input := b } : Thread)]) = addedAll p.threads := by simp [addedAll, added]
      have hp := ih (fun th h => hlen th (by simp [h])) (by simp [Spec.totalBare] at hbare ⊢; omega)
      refine ⟨?_, hp.bpv, ?_⟩
      · simp only [hz]; exact hp.store
      · intro th hth
        simp only [hz]
        simp only [List.mem_append, List.mem_singleton] at hth
        rcases hth with h | h
        · exact hp.pcs th h
        · subst h; trivial
    | move i th th' sh' hi hstep =>
      have hmem := List.mem_of_getElem? hi
      have hok := reach_ok hr th hmem
      have hinp := (stepThread_ok E hok hstep).2
      have hbareEq : Spec.totalBare { sh := sh', threads := p.threads.set i th' } = Spec.totalBare p := by
        simp only [Spec.totalBare]
        congr 1
        apply List.ext_getElem?
        intro j
        simp only [List.getElem?_map, List.getElem?_set]
        split
        · rename_i hij; subst hij
          split
          · rw [hi]; simp [hinp]
          · rename_i hl; rw [List.getElem?_eq_none (by omega)]
        · rfl
      rw [hbareEq] at hbare
      have hlenp : ∀ x ∈ p.threads, x.input.length < 2^31 := by
        intro x hx
        obtain ⟨j, hj, hjx⟩ := List.mem_iff_getElem.mp hx
        by_cases hij : i = j
        · subst hij
          have hx' : x = th := by
            rw [List.getElem?_eq_getElem hj, hjx] at hi; exact Option.some.inj hi
          have := hlen th' (by simp only; exact List.mem_iff_getElem.mpr ⟨i, by simpa using hj, by simp⟩)
          rw [hx', ← hinp]; exact this
        · exact hlen x (by
            simp only
            exact List.mem_iff_getElem.mpr ⟨j, by simpa using hj, by rw [List.getElem_set_ne hij]; exact hjx⟩)
      have hp := ih hlenp hbare
      have hpc := hp.pcs th hmem
      have hsum := sum_set_added (th' := th') hi
      have hle := addedAll_le p
      have hleq := addedAll_le { sh := sh', threads := p.threads.set i th' }
      rw [hbareEq] at hleq
      simp only at hleq
      have fin : addedAll p.threads ≤ addedAll (p.threads.set i th') →
          WordOk (addedAll (p.threads.set i th')) sh'.store → sh'.bpv.toNat < 2^32 →
          PcOk (addedAll (p.threads.set i th')) th'.pc → ProcOk { sh := sh', threads := p.threads.set i th' } := by
        intro h1 h2 h3 h4
        refine ⟨h2, h3, ?_⟩
        intro x hx
        rcases mem_set_cases hx with h | h
        · subst h; exact h4
        · exact (hp.pcs x h).mono h1
      obtain ⟨T, N, hw, hN, hNT, hT⟩ := hp.store
      unfold stepThread at hstep
      split at hstep
      · rename_i hpcs
        have ha : added th = 0 := by simp [added, hpcs]
        split at hstep
        · rename_i hb
          simp only [Option.some.injEq, Prod.mk.injEq] at hstep
          obtain ⟨rfl, rfl⟩ := hstep
          have hpos : 0 < p.sh.bpv.toInt := by
            have h1 := hp.bpv
            have h2 := BitVec.lt_def.mp hb
            rw [BitVec.toInt_eq_toNat_cond, if_pos (by omega)]
            simp at h2; omega
          obtain ⟨n, r, hn⟩ := enter_pc E th _ hpos
          exact fin (by omega) (hp.store.mono (by omega)) hp.bpv (by rw [hn]; trivial)
        · simp only [Option.some.injEq, Prod.mk.injEq] at hstep
          obtain ⟨rfl, rfl⟩ := hstep
          exact fin (by omega) (hp.store.mono (by omega)) hp.bpv trivial
      · rename_i hpcs
        have ha : added th = 0 := by simp [added, hpcs]
        have hne : ¬ calcNum p.sh.store = 0#64 := by
          intro h
          have := congrArg BitVec.toNat h
          rw [hw.calcNum] at this; simp at this; omega
        rw [if_neg hne] at hstep
        simp only [Option.some.injEq, Prod.mk.injEq] at hstep
        obtain ⟨rfl, rfl⟩ := hstep
        have hpos : 0 < (calcTotal p.sh.store / calcNum p.sh.store).toInt := by
          have h1 : (calcTotal p.sh.store / calcNum p.sh.store).toNat = T / N := by
            rw [BitVec.toNat_udiv, hw.calcTotal, hw.calcNum]
          have h2 : 1 ≤ T / N := (Nat.one_le_div_iff (by omega)).mpr (by omega)
          have h3 := Nat.div_le_self T N
          have h4 := hw.total
          rw [BitVec.toInt_eq_toNat_cond, h1, if_pos (by omega)]
          omega
        obtain ⟨n, r, hn⟩ := enter_pc E th _ hpos
        exact fin (by omega) (hp.store.mono (by omega)) hp.bpv (by rw [hn]; trivial)
      · rename_i n r hpcs
        have ha : added th = 0 := by simp [added, hpcs]
        simp only [Option.some.injEq, Prod.mk.injEq] at hstep
        obtain ⟨rfl, rfl⟩ := hstep
        have hb : addedAll p.threads + Spec.bareBytes th.input ≤ 2^31 := by
          have hle2 : addedAll p.threads + Spec.bareBytes th.input ≤ Spec.totalBare p := by
            have := sum_set_added (th' := { th with pc := .done r }) hi
            have h2 := addedAll_le { sh := p.sh, threads := p.threads.set i { th with pc := .done r } }
            have h3 : Spec.totalBare { sh := p.sh, threads := p.threads.set i { th with pc := .done r } } = Spec.totalBare p := by
              simp only [Spec.totalBare]
              congr 1
              apply List.ext_getElem?
              intro j
              simp only [List.getElem?_map, List.getElem?_set]
              split
              · rename_i hij; subst hij
                split
                · rw [hi]; simp
                · rename_i hl; rw [List.getElem?_eq_none (by omega)]
              · rfl
            have h4 : added { th with pc := .done r } = Spec.bareBytes th.input := by simp [added]
            rw [h3] at h2; simp only at h2
            omega
          omega
        have hacc := accumulate_ok hok hpcs (hlenp th hmem) hp.store hb
        have hz : addedAll (p.threads.set i (accumulate th p.sh.store n r)) = addedAll p.threads + Spec.bareBytes th.input := by
          have := hacc.2; omega
        exact fin (by omega) (hp.store.mono (by omega)) hp.bpv (by rw [hz]; exact hacc.1)
      · rename_i x r hpcs
        simp only [Option.some.injEq, Prod.mk.injEq] at hstep
        obtain ⟨rfl, rfl⟩ := hstep
        have ha : added th = Spec.bareBytes th.input := by simp [added, hpcs]
        have ha' : added { th with pc := .done r } = Spec.bareBytes th.input := by simp [added]
        rw [hpcs] at hpc
        exact fin (by omega) (WordOk.mono hpc (by omega)) hp.bpv trivial
      · rename_i per r hpcs
        simp only [Option.some.injEq, Prod.mk.injEq] at hstep
        obtain ⟨rfl, rfl⟩ := hstep
        have ha : added th = Spec.bareBytes th.input := by simp [added, hpcs]
        have ha' : added { th with pc := .storePer per r } = Spec.bareBytes th.input := by simp [added]
        rw [hpcs] at hpc
        exact fin (by omega) (hp.store.mono (by omega)) (by have := hpc.2; simp only; omega) (PerOk.mono hpc (by omega))
      · rename_i per r hpcs
        simp only [Option.some.injEq, Prod.mk.injEq] at hstep
        obtain ⟨rfl, rfl⟩ := hstep
        have ha : added th = Spec.bareBytes th.input := by simp [added, hpcs]
        have ha' : added { th with pc := .done r } = Spec.bareBytes th.input := by simp [added]
        rw [hpcs] at hpc
        have hper : PerOk (addedAll p.threads) per := hpc
        have hwp := word_pack per 1#64 (by have := hper.2; omega) (by decide)
        refine fin (by omega) ?_ hp.bpv trivial
        exact ⟨_, _, hwp, by simp, by have := hper.1; simpa using this, by have := hper.2; omega⟩
      · simp at hstep
      · simp at hstep

end JV
