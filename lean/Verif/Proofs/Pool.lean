import Verif.Spec.Pool
import Verif.Proofs.Total
/-! The parser with its arena: same result as the parser, number of requests, distinct nodes. -/
namespace JV

/-! ### forgetting the nodes -/

/-- the plain outcome -/
def forget (r : PR (NV × Bytes)) : R (V × Bytes) := r.1 >>= fun x => .ok (x.1.toV, x.2)

theorem forget_andThen {α : Type} (x : PR α) (k : α → Pool → PR (NV × Bytes)) :
    forget (x.andThen k) = x.1 >>= fun a => forget (k a x.2) := by
  obtain ⟨r, p⟩ := x
  cases r <;> simp [PR.andThen, forget]

theorem toVs_append (a b : List NV) : NV.toVs (a ++ b) = NV.toVs a ++ NV.toVs b := by
  induction a with
  | nil => simp [NV.toVs]
  | cons x a ih => simp [NV.toVs, ih]

theorem toEnts_assign (k : Bytes) (i : BitVec 32) (v : NV) (l : List (Bytes × BitVec 32 × NV)) :
    NV.toEnts (assignN (k, i, v) l) = assign ⟨k, i, v.toV⟩ (NV.toEnts l) := by
  induction l with
  | nil => simp [assignN, assign, NV.toEnts]
  | cons x l ih =>
    obtain ⟨k', i', v'⟩ := x
    simp only [assignN, NV.toEnts, assign, Ent.key_mk]
    by_cases h : k' = k
    · simp [h, NV.toEnts]
    · simp [h, NV.toEnts, ih]

def OStN.toO (st : OStN) : OSt := { key := st.key, colon := st.colon, incr := st.incr, kvs := NV.toEnts st.kvs }

theorem toO_setMember (st : OStN) (k : Bytes) (v : NV) : (setMemberN st k v).toO = setMember st.toO k v.toV := by
  simp [OStN.toO, setMemberN, setMember, toEnts_assign]

theorem parseScalarN_fst (E : Env) (f : Nat) (c : UInt8) (t : Bytes) (p : Pool) {β : Type} (k : Option (V × Bytes) → R β) :
    ((parseScalarN E f c t p).1 >>= fun o => k (o.map fun x => (x.1.toV, x.2))) = parseScalar E f c t >>= k := by
  unfold parseScalarN
  match parseScalar E f c t with
  | .ok (some (v, t)) => cases v <;> simp [NV.toV]
  | .ok none => simp
  | .err e => simp
  | .panic => simp
  | .diverge => simp

theorem loopsN_forget (E : Env) (f : Nat) :
    (∀ s n acc p, forget (arrLoopN E f s n acc p) = arrLoop E f s (NV.toVs acc)) ∧
    (∀ s n st p, forget (objLoopN E f s n st p) = objLoop E f s st.toO) := by
  induction f with
  | zero => exact ⟨by intros; simp [arrLoopN, arrLoop, forget], by intros; simp [objLoopN, objLoop, forget]⟩
  | succ f ih =>
    obtain ⟨iha, iho⟩ := ih
    have h0 : OStN.toO {} = {} := rfl
    have bindF : ∀ (x : PR (NV × Bytes)) (k : V → Bytes → R (V × Bytes)),
        (x.1 >>= fun a => k a.1.toV a.2) = forget x >>= fun a => k a.1 a.2 := by
      intro x k; obtain ⟨r, p⟩ := x; cases r <;> simp [forget]
    constructor
    · intro s n acc p
      simp only [arrLoopN, arrLoop]
      match hsk : skipBlanks s with
      | [] => simp [forget]
      | c :: t =>
        simp only
        by_cases h1 : c = 0x5D
        · rw [if_pos h1, if_pos h1]; simp [forget, NV.toV]
        rw [if_neg h1, if_neg h1]
        by_cases h2 : c = 0x2C
        · rw [if_pos h2, if_pos h2]; exact iha _ _ _ _
        rw [if_neg h2, if_neg h2]
        by_cases h3 : c = 0x7B
        · rw [if_pos h3, if_pos h3, forget_andThen]
          simp only [iha, toVs_append, NV.toVs]
          rw [bindF _ (fun v t => arrLoop E f t (NV.toVs acc ++ [v])), iho, h0]
        rw [if_neg h3, if_neg h3]
        by_cases h4 : c = 0x5B
        · rw [if_pos h4, if_pos h4, forget_andThen]
          simp only [iha, toVs_append, NV.toVs]
          rw [bindF _ (fun v t => arrLoop E f t (NV.toVs acc ++ [v])), iha, NV.toVs]
        rw [if_neg h4, if_neg h4, forget_andThen, ← parseScalarN_fst E (f+1) c t p]
        congr 1; funext o
        match o with
        | none => simp [forget]
        | some (v, t) => simp [iha, toVs_append, NV.toVs]
    · intro s n st p
      have hk : st.toO.key = st.key := rfl
      have hc : st.toO.colon = st.colon := rfl
      have hi : st.toO.incr = st.incr := rfl
      have hv : st.toO.kvs = NV.toEnts st.kvs := rfl
      simp only [objLoopN, objLoop, hk, hc, hi, hv]
      match hsk : skipBlanks s with
      | [] => simp [forget]
      | c :: t =>
        simp only
        by_cases h1 : c = 0x7D
        · rw [if_pos h1, if_pos h1]
          cases hkk : st.key <;> simp [forget, NV.toV]
        rw [if_neg h1, if_neg h1]
        by_cases h2 : c = 0x2C
        · rw [if_pos h2, if_pos h2]
          cases hkk : st.key with
          | none => exact iho _ _ _ _
          | some _ => simp [forget]
        rw [if_neg h2, if_neg h2]
        by_cases h3 : c = 0x3A
        · rw [if_pos h3, if_pos h3]
          by_cases hcol : st.colon
          · rw [if_pos hcol, if_pos hcol]; simp [forget]
          rw [if_neg hcol, if_neg hcol]
          cases hkk : st.key with
          | none => simp [forget]
          | some _ => simp only [iho]; rfl
        rw [if_neg h3, if_neg h3]
        by_cases h4 : c = 0x22
        · rw [if_pos h4, if_pos h4]
          cases hkk : st.key with
          | some k =>
            simp only
            by_cases hcol : (!st.colon) = true
            · rw [if_pos hcol, if_pos hcol]; simp [forget]
            rw [if_neg hcol, if_neg hcol]
            match hs : strLoop (f+1) t [] with
            | .ok (s, t) => simp only [R.bind_ok, iho, toO_setMember, NV.toV]
            | .err e => simp [forget]
            | .panic => simp [forget]
            | .diverge => simp [forget]
          | none =>
            match hs : strLoop (f+1) t [] with
            | .ok (s, t) => simp only [R.bind_ok, iho]; rfl
            | .err e => simp [forget]
            | .panic => simp [forget]
            | .diverge => simp [forget]
        rw [if_neg h4, if_neg h4]
        by_cases h5 : c = 0x7B ∨ c = 0x5B ∨ isNumStart c ∨ c = 0x74 ∨ c = 0x66 ∨ c = 0x6E
        · rw [if_pos h5, if_pos h5]
          cases hkk : st.key with
          | none => simp [forget]
          | some k =>
            simp only
            by_cases hcol : (!st.colon) = true
            · rw [if_pos hcol, if_pos hcol]; simp [forget]
            rw [if_neg hcol, if_neg hcol]
            by_cases h6 : c = 0x7B
            · rw [if_pos h6, if_pos h6, forget_andThen]
              simp only [iho, toO_setMember]
              rw [bindF _ (fun v t => objLoop E f t (setMember st.toO k v)), iho, h0]
            rw [if_neg h6, if_neg h6]
            by_cases h7 : c = 0x5B
            · rw [if_pos h7, if_pos h7, forget_andThen]
              simp only [iho, toO_setMember]
              rw [bindF _ (fun v t => objLoop E f t (setMember st.toO k v)), iha, NV.toVs]
            rw [if_neg h7, if_neg h7, forget_andThen, ← parseScalarN_fst E (f+1) c t p]
            congr 1; funext o
            match o with
            | none => simp [forget]
            | some (v, t) => simp [iho, toO_setMember]
        rw [if_neg h5, if_neg h5]; simp [forget]

theorem parseIn_forget (E : Env) (cnt : Nat) (b : Bytes) :
    ((parseIn E cnt b).1 >>= fun x => .ok x.toV) = unmarshalWithIter E b := by
  have h0 : OStN.toO {} = {} := rfl
  have hp : ∀ f c t p, forget (parseValueN E f c t p) = parseValue E f c t := by
    intro f c t p
    unfold parseValueN parseValue
    by_cases h1 : c = 0x7B
    · rw [if_pos h1, if_pos h1, (loopsN_forget E f).2, h0]
    rw [if_neg h1, if_neg h1]
    by_cases h2 : c = 0x5B
    · rw [if_pos h2, if_pos h2, (loopsN_forget E f).1, NV.toVs]
    rw [if_neg h2, if_neg h2, forget_andThen, ← parseScalarN_fst E f c t p]
    congr 1; funext o
    match o with
    | none => simp [forget]
    | some (v, t) => simp [forget]
  unfold parseIn unmarshalWithIterN unmarshalWithIter
  match skipBlanks b with
  | [] => simp
  | c :: t =>
    simp only
    rw [← hp (b.length + 1) c t (Pool.new cnt)]
    match parseValueN E (b.length + 1) c t (Pool.new cnt) with
    | (.ok r, p) =>
      simp only [PR.andThen, forget, R.bind_ok]
      split
      · rename_i h; simp
      · simp
    | (.err e, p) => simp [PR.andThen, forget]
    | (.panic, p) => simp [PR.andThen, forget]
    | (.diverge, p) => simp [PR.andThen, forget]

/-! ### the nodes of a value -/

mutual
/-- all nodes of a value, once per position -/
def NV.nodes : NV → List Node
  | .leaf n _ => [n]
  | .arr n xs => n :: NV.nodesL xs
  | .obj n _ kvs => n :: NV.nodesM kvs
def NV.nodesL : List NV → List Node
  | [] => []
  | x :: xs => x.nodes ++ NV.nodesL xs
def NV.nodesM : List (Bytes × BitVec 32 × NV) → List Node
  | [] => []
  | (_, _, v) :: r => v.nodes ++ NV.nodesM r
end

theorem nodesL_append (a b : List NV) : NV.nodesL (a ++ b) = NV.nodesL a ++ NV.nodesL b := by
  induction a with
  | nil => simp [NV.nodesL]
  | cons x a ih => simp [NV.nodesL, ih]

theorem nodesM_assign_mem (e : Bytes × BitVec 32 × NV) (l : List (Bytes × BitVec 32 × NV)) (n : Node)
    (h : n ∈ NV.nodesM (assignN e l)) : n ∈ NV.nodesM l ∨ n ∈ e.2.2.nodes := by
  induction l with
  | nil => simp [assignN, NV.nodesM] at h; exact .inr h
  | cons x l ih =>
    simp only [assignN] at h
    split at h
    · simp only [NV.nodesM, List.mem_append] at h ⊢
      rcases h with h | h
      · exact .inr h
      · exact .inl (.inr h)
    · simp only [NV.nodesM, List.mem_append] at h ⊢
      rcases h with h | h
      · exact .inl (.inl h)
      · rcases ih h with h | h
        · exact .inl (.inr h)
        · exact .inr h

theorem nodesM_assign_nodup (e : Bytes × BitVec 32 × NV) (l : List (Bytes × BitVec 32 × NV)) (hl : (NV.nodesM l).Nodup)
    (he : e.2.2.nodes.Nodup) (hd : ∀ n ∈ NV.nodesM l, n ∉ e.2.2.nodes) : (NV.nodesM (assignN e l)).Nodup := by
  induction l with
  | nil => simpa [assignN, NV.nodesM] using he
  | cons x l ih =>
    simp only [NV.nodesM, List.nodup_append, List.mem_append] at hl hd
    simp only [assignN]
    split
    · simp only [NV.nodesM, List.nodup_append]
      exact ⟨he, hl.2.1, fun a ha b hb hab => hd b (.inr hb) (hab ▸ ha)⟩
    · simp only [NV.nodesM, List.nodup_append]
      refine ⟨hl.1, ih hl.2.1 (fun n hn => hd n (.inr hn)), fun a ha b hb hab => ?_⟩
      subst hab
      rcases nodesM_assign_mem e l a hb with h | h
      · exact hl.2.2 a ha a h rfl
      · exact hd a (.inl ha) h

/-! ### what the pool has handed out -/

/-- handed out before the pool got into this state -/
def Issued (p : Pool) : Node → Prop
  | .slot i => i < p.actual ∧ i < p.count
  | .fresh i => i < p.heap

/-- `q` is a later state of the pool `p` -/
def Later (p q : Pool) : Prop := q.len = p.len ∧ q.count = p.count ∧ p.actual ≤ q.actual ∧ p.heap ≤ q.heap

theorem Later.refl (p : Pool) : Later p p := ⟨rfl, rfl, Nat.le_refl _, Nat.le_refl _⟩

theorem Later.trans {p q r : Pool} (h : Later p q) (h' : Later q r) : Later p r :=
  ⟨h'.1.trans h.1, h'.2.1.trans h.2.1, Nat.le_trans h.2.2.1 h'.2.2.1, Nat.le_trans h.2.2.2 h'.2.2.2⟩

theorem Issued.later {p q : Pool} {n : Node} (h : Issued p n) (hl : Later p q) : Issued q n := by
  obtain ⟨h1, h2, h3, h4⟩ := hl
  cases n with
  | slot i => simp only [Issued] at h ⊢; rw [h2]; omega
  | fresh i => simp only [Issued] at h ⊢; omega

/-- handed out between `p` and `q` -/
def New (p q : Pool) (n : Node) : Prop := Issued q n ∧ ¬ Issued p n

theorem New.before {p q r : Pool} {n : Node} (hl : Later p q) (h : New q r n) : New p r n :=
  ⟨h.1, fun h' => h.2 (h'.later hl)⟩

theorem New.after {p q r : Pool} {n : Node} (hl : Later q r) (h : New p q n) : New p r n :=
  ⟨h.1.later hl, h.2⟩

theorem get_later (p : Pool) : Later p p.get.2 ∧ p.get.2.actual = p.actual + 1 := by
  unfold Pool.get Pool.global Later; split <;> simp

theorem get_new (p : Pool) : New p p.get.2 p.get.1 := by
  unfold Pool.get Pool.global New; split <;> simp [Issued] <;> omega

theorem global_later (p : Pool) : Later p p.global.2 ∧ p.global.2.actual = p.actual := by
  unfold Pool.global Later; simp

theorem global_new (p : Pool) : New p p.global.2 p.global.1 := by
  unfold Pool.global New; simp [Issued]

/-- What holds after a part of the parse that read from `s`, started with the pool `p` and owns the nodes `L`:
the requests made are at most the bytes read (also when it fails), and the nodes of its value are distinct and
either among `L` or handed out meanwhile. -/
def Fine (s : Bytes) (p : Pool) (L : List Node) (r : PR (NV × Bytes)) : Prop :=
  Later p r.2 ∧ r.2.actual ≤ p.actual + s.length ∧
  ∀ v t, r.1 = .ok (v, t) → r.2.actual + t.length ≤ p.actual + s.length ∧ v.nodes.Nodup ∧
    ∀ n ∈ v.nodes, n ∈ L ∨ New p r.2 n

theorem fine_fail {s : Bytes} {p : Pool} {L : List Node} {r : R (NV × Bytes)} (h : ∀ x, r ≠ .ok x) : Fine s p L (r, p) :=
  ⟨.refl _, by simp, fun v t h' => absurd h' (h _)⟩

theorem fine_ok {s t : Bytes} {p : Pool} {L : List Node} {v : NV} (ht : t.length ≤ s.length) (hd : v.nodes.Nodup)
    (hm : ∀ n ∈ v.nodes, n ∈ L) : Fine s p L (.ok (v, t), p) := by
  refine ⟨.refl _, by simp, fun v' t' h => ?_⟩
  simp only [R.ok.injEq, Prod.mk.injEq] at h
  obtain ⟨rfl, rfl⟩ := h
  exact ⟨by simp; omega, hd, fun n hn => .inl (hm n hn)⟩

/-- continuing from a later state of the pool -/
theorem Fine.from {s t : Bytes} {p q : Pool} {L L' : List Node} {r : PR (NV × Bytes)} (hl : Later p q)
    (hc : q.actual + t.length ≤ p.actual + s.length) (hL : ∀ n ∈ L', n ∈ L ∨ New p q n) (h : Fine t q L' r) : Fine s p L r := by
  obtain ⟨h1, h2, h3⟩ := h
  refine ⟨hl.trans h1, by omega, fun v t' h' => ?_⟩
  obtain ⟨h4, h5, h6⟩ := h3 v t' h'
  refine ⟨by omega, h5, fun n hn => ?_⟩
  rcases h6 n hn with h | h
  · rcases hL n h with h | h
    · exact .inl h
    · exact .inr (h.after h1)
  · exact .inr (h.before hl)

/-- the nodes owned by a part that starts in state `p` -/
def Owns (p : Pool) (L : List Node) : Prop := L.Nodup ∧ ∀ n ∈ L, Issued p n

/-- a part of the parse that read one child, then the rest -/
theorem Fine.andThen {s t : Bytes} {p q : Pool} {L L1 : List Node} {x : PR (NV × Bytes)} {k : NV × Bytes → Pool → PR (NV × Bytes)}
    (hq : Later p q) (hc : q.actual + t.length ≤ p.actual + s.length) (hL1 : ∀ n ∈ L1, New p q n)
    (hx : Fine t q L1 x)
    (hk : ∀ v t' p', t'.length ≤ t.length → Later p p' → v.nodes.Nodup → (∀ n ∈ v.nodes, New p p' n) →
      ∃ L', Fine t' p' L' (k (v, t') p') ∧ ∀ n ∈ L', n ∈ L ∨ n ∈ v.nodes) :
    Fine s p L (x.andThen k) := by
  obtain ⟨r, p'⟩ := x
  obtain ⟨h1, h2, h3⟩ := hx
  have hpp : Later p p' := hq.trans h1
  have fail : ∀ r' : R (NV × Bytes), (∀ x, r' ≠ .ok x) → Fine s p L (r', p') := by
    intro r' hr'
    refine ⟨hpp, ?_, fun v t h => absurd h (hr' _)⟩
    simp only at h2 ⊢; omega
  match r with
  | .ok (v, t') =>
    obtain ⟨h4, h5, h6⟩ := h3 v t' rfl
    have hnew : ∀ n ∈ v.nodes, New p p' n := by
      intro n hn
      rcases h6 n hn with h | h
      · exact (hL1 n h).after h1
      · exact h.before hq
    obtain ⟨L', hf, hL'⟩ := hk v t' p' (by have := h1.2.2.1; simp only at h4 this; omega) hpp h5 hnew
    refine Fine.from hpp ?_ ?_ hf
    · simp only at h4 ⊢; omega
    · intro n hn
      rcases hL' n hn with h | h
      · exact .inl h
      · exact .inr (hnew n h)
  | .err e => exact fail _ (by simp)
  | .panic => exact fail _ (by simp)
  | .diverge => exact fail _ (by simp)

theorem parseScalarN_fine (E : Env) (f : Nat) (c : UInt8) (t : Bytes) (p : Pool) (hf : t.length < f) :
    (∃ r, parseScalarN E f c t p = (r, p) ∧ ∀ x, r ≠ .ok (some x)) ∨
    (∃ v t' n p', parseScalarN E f c t p = (.ok (some (.leaf n v, t')), p') ∧ Later p p' ∧ New p p' n ∧
      t'.length ≤ t.length ∧ p'.actual ≤ p.actual + 1) := by
  have htot := (parseScalar_total E f c t hf).2
  unfold parseScalarN
  match hs : parseScalar E f c t with
  | .ok (some (v, t')) =>
    have hlen : t'.length ≤ t.length := by have := htot v t' hs; simp at this; omega
    right
    have hg := get_later p
    have hg' := global_later p
    cases v with
    | num src n => exact ⟨_, t', _, _, rfl, hg.1, get_new p, hlen, by omega⟩
    | _ => exact ⟨_, t', _, _, rfl, hg'.1, global_new p, hlen, by omega⟩
  | .ok none => exact .inl ⟨_, rfl, by simp⟩
  | .err e => exact .inl ⟨_, rfl, by simp⟩
  | .panic => exact .inl ⟨_, rfl, by simp⟩
  | .diverge => exact .inl ⟨_, rfl, by simp⟩

theorem owns_arr {p p' : Pool} {n : Node} {acc : List NV} {v : NV} (hL : Owns p (n :: NV.nodesL acc)) (hl : Later p p')
    (hd : v.nodes.Nodup) (hv : ∀ m ∈ v.nodes, New p p' m) : Owns p' (n :: NV.nodesL (acc ++ [v])) := by
  have hdis : ∀ a ∈ n :: NV.nodesL acc, a ∉ v.nodes := fun a ha h => (hv a h).2 (hL.2 a ha)
  refine ⟨?_, ?_⟩
  · rw [nodesL_append, ← List.cons_append, List.nodup_append]
    refine ⟨hL.1, by simpa [NV.nodesL] using hd, fun a ha b hb hab => ?_⟩
    simp only [NV.nodesL, List.append_nil] at hb
    exact hdis a ha (hab ▸ hb)
  · intro a ha
    rw [nodesL_append, ← List.cons_append, List.mem_append] at ha
    rcases ha with h | h
    · exact (hL.2 a h).later hl
    · simp only [NV.nodesL, List.append_nil] at h; exact (hv a h).1

theorem sub_arr {n : Node} {acc : List NV} {v : NV} : ∀ m ∈ n :: NV.nodesL (acc ++ [v]), m ∈ n :: NV.nodesL acc ∨ m ∈ v.nodes := by
  intro m hm
  rw [nodesL_append, ← List.cons_append, List.mem_append] at hm
  simpa [NV.nodesL] using hm

theorem owns_obj {p p' : Pool} {n : Node} {st : OStN} {k : Bytes} {v : NV} (hL : Owns p (n :: NV.nodesM st.kvs)) (hl : Later p p')
    (hd : v.nodes.Nodup) (hv : ∀ m ∈ v.nodes, New p p' m) : Owns p' (n :: NV.nodesM (setMemberN st k v).kvs) := by
  have hdis : ∀ a ∈ n :: NV.nodesM st.kvs, a ∉ v.nodes := fun a ha h => (hv a h).2 (hL.2 a ha)
  have hL1 := List.nodup_cons.mp hL.1
  refine ⟨?_, ?_⟩
  · rw [List.nodup_cons]
    refine ⟨fun h => ?_, nodesM_assign_nodup _ _ hL1.2 hd (fun a ha => hdis a (List.mem_cons_of_mem _ ha))⟩
    rcases nodesM_assign_mem _ _ _ h with h | h
    · exact hL1.1 h
    · exact hdis n (List.mem_cons_self) h
  · intro a ha
    rcases List.mem_cons.mp ha with h | h
    · exact (hL.2 a (h ▸ List.mem_cons_self)).later hl
    · rcases nodesM_assign_mem _ _ _ h with h | h
      · exact (hL.2 a (List.mem_cons_of_mem _ h)).later hl
      · exact (hv a h).1

theorem sub_obj {n : Node} {st : OStN} {k : Bytes} {v : NV} :
    ∀ m ∈ n :: NV.nodesM (setMemberN st k v).kvs, m ∈ n :: NV.nodesM st.kvs ∨ m ∈ v.nodes := by
  intro a ha
  rcases List.mem_cons.mp ha with h | h
  · exact .inl (h ▸ List.mem_cons_self)
  · rcases nodesM_assign_mem _ _ _ h with h | h
    · exact .inl (List.mem_cons_of_mem _ h)
    · exact .inr h

theorem owns_get (p : Pool) : Owns p.get.2 [p.get.1] := ⟨by simp, by simp; exact (get_new p).1⟩

theorem loopsN_fine (E : Env) (f : Nat) :
    (∀ s n acc p, s.length < f → Owns p (n :: NV.nodesL acc) → Fine s p (n :: NV.nodesL acc) (arrLoopN E f s n acc p)) ∧
    (∀ s n st p, s.length < f → Owns p (n :: NV.nodesM st.kvs) → Fine s p (n :: NV.nodesM st.kvs) (objLoopN E f s n st p)) := by
  induction f with
  | zero => exact ⟨by intros; omega, by intros; omega⟩
  | succ f ih =>
    obtain ⟨iha, iho⟩ := ih
    constructor
    · intro s n acc p hf hL
      have hsk := skipBlanks_length s
      simp only [arrLoopN]
      match h : skipBlanks s with
      | [] => exact fine_fail (by simp)
      | c :: t =>
        rw [h] at hsk; simp only [List.length_cons] at hsk
        have hg := get_later p
        simp only
        have hsub : ∀ x : PR (NV × Bytes), Fine t p.get.2 [p.get.1] x →
            Fine s p (n :: NV.nodesL acc) (x.andThen fun r p => arrLoopN E f r.2 n (acc ++ [r.1]) p) := by
          intro x hx
          refine Fine.andThen hg.1 (by omega) (by simp; exact get_new p) hx ?_
          intro v t' p' ht hl hd hv
          exact ⟨_, iha t' n (acc ++ [v]) p' (by omega) (owns_arr hL hl hd hv), sub_arr⟩
        split
        · refine fine_ok (by omega) ?_ ?_
          · exact hL.1
          · simp [NV.nodes]
        · split
          · exact Fine.from (.refl p) (by omega) (fun m hm => .inl hm) (iha t n acc p (by omega) hL)
          · split
            · exact hsub _ (iho _ _ _ _ (by omega) (owns_get p))
            · split
              · exact hsub _ (iha _ _ _ _ (by omega) (owns_get p))
              · rcases parseScalarN_fine E (f+1) c t p (by omega) with ⟨r, hr, hn⟩ | ⟨v, t', m, p', hr, hl, hnew, ht, ha⟩
                · rw [hr]
                  match r with
                  | .ok none => exact fine_fail (by simp)
                  | .ok (some x) => exact absurd rfl (hn x)
                  | .err e => exact fine_fail (by simp)
                  | .panic => exact fine_fail (by simp)
                  | .diverge => exact fine_fail (by simp)
                · rw [hr]
                  have hv : ∀ a ∈ (NV.leaf m v).nodes, New p p' a := by simp [NV.nodes]; exact hnew
                  refine Fine.from hl ?_ ?_ (iha t' n (acc ++ [.leaf m v]) p' (by omega) (owns_arr hL hl (by simp [NV.nodes]) hv))
                  · omega
                  · intro a ha
                    rcases sub_arr a ha with h | h
                    · exact .inl h
                    · exact .inr (hv a h)
    · intro s n st p hf hL
      have hsk := skipBlanks_length s
      simp only [objLoopN]
      match h : skipBlanks s with
      | [] => exact fine_fail (by simp)
      | c :: t =>
        rw [h] at hsk; simp only [List.length_cons] at hsk
        have hg := get_later p
        have hgl := global_later p
        simp only
        have hsub : ∀ (k : Bytes) (x : PR (NV × Bytes)), Fine t p.get.2 [p.get.1] x →
            Fine s p (n :: NV.nodesM st.kvs) (x.andThen fun r p => objLoopN E f r.2 n (setMemberN st k r.1) p) := by
          intro k x hx
          refine Fine.andThen hg.1 (by omega) (by simp; exact get_new p) hx ?_
          intro v t' p' ht hl hd hv
          exact ⟨_, iho t' n (setMemberN st k v) p' (by omega) (owns_obj hL hl hd hv), sub_obj⟩
        have hleaf : ∀ (k : Bytes) (v : V) (m : Node) (t' : Bytes) (p' : Pool), Later p p' → New p p' m → t'.length ≤ t.length →
            p'.actual ≤ p.actual + 1 → Fine s p (n :: NV.nodesM st.kvs) (objLoopN E f t' n (setMemberN st k (.leaf m v)) p') := by
          intro k v m t' p' hl hnew ht ha
          have hv : ∀ a ∈ (NV.leaf m v).nodes, New p p' a := by simp [NV.nodes]; exact hnew
          refine Fine.from hl ?_ ?_ (iho t' n (setMemberN st k (.leaf m v)) p' (by omega) (owns_obj hL hl (by simp [NV.nodes]) hv))
          · omega
          · intro a ha
            rcases sub_obj a ha with h | h
            · exact .inl h
            · exact .inr (hv a h)
        have hstr := (strLoop_total (f+1) t [] (by omega)).2
        split
        · split
          · exact fine_fail (by simp)
          · refine fine_ok (by omega) hL.1 ?_
            simp [NV.nodes]
        · split
          · split
            · exact fine_fail (by simp)
            · exact Fine.from (.refl p) (by omega) (fun m hm => .inl hm) (iho t n st p (by omega) hL)
          · split
            · split
              · exact fine_fail (by simp)
              · split
                · exact fine_fail (by simp)
                · exact Fine.from (.refl p) (by omega) (fun m hm => .inl hm) (iho t n { st with colon := true } p (by omega) hL)
            · split
              · split
                · split
                  · exact fine_fail (by simp)
                  · split
                    · rename_i s' t' hs
                      have := hstr s' t' hs
                      exact hleaf _ _ _ _ _ hgl.1 (global_new p) (by omega) (by omega)
                    all_goals exact fine_fail (by simp)
                · split
                  · rename_i s' t' hs
                    have := hstr s' t' hs
                    exact Fine.from (.refl p) (by omega) (fun m hm => .inl hm) (iho t' n { st with key := some s' } p (by omega) hL)
                  all_goals exact fine_fail (by simp)
              · split
                · split
                  · exact fine_fail (by simp)
                  · split
                    · exact fine_fail (by simp)
                    · split
                      · exact hsub _ _ (iho _ _ _ _ (by omega) (owns_get p))
                      · split
                        · exact hsub _ _ (iha _ _ _ _ (by omega) (owns_get p))
                        · rcases parseScalarN_fine E (f+1) c t p (by omega) with ⟨r, hr, hn⟩ | ⟨v, t', m, p', hr, hl, hnew, ht, ha⟩
                          · rw [hr]
                            match r with
                            | .ok none => exact fine_fail (by simp)
                            | .ok (some x) => exact absurd rfl (hn x)
                            | .err e => exact fine_fail (by simp)
                            | .panic => exact fine_fail (by simp)
                            | .diverge => exact fine_fail (by simp)
                          · rw [hr]
                            exact hleaf _ _ _ _ _ hl hnew ht ha
                · exact fine_fail (by simp)

theorem parseValueN_fine (E : Env) (f : Nat) (c : UInt8) (t : Bytes) (p : Pool) (hf : t.length < f) :
    Fine (c :: t) p [] (parseValueN E f c t p) := by
  have hg := get_later p
  have hsub : ∀ x : PR (NV × Bytes), Fine t p.get.2 [p.get.1] x → Fine (c :: t) p [] x := fun x hx =>
    Fine.from hg.1 (by simp; omega) (by simp; exact get_new p) hx
  unfold parseValueN
  split
  · exact hsub _ ((loopsN_fine E f).2 _ _ _ _ hf (owns_get p))
  · split
    · exact hsub _ ((loopsN_fine E f).1 _ _ _ _ hf (owns_get p))
    · rcases parseScalarN_fine E f c t p (by omega) with ⟨r, hr, hn⟩ | ⟨v, t', m, p', hr, hl, hnew, ht, ha⟩
      · rw [hr]
        match r with
        | .ok none => exact fine_fail (by simp)
        | .ok (some x) => exact absurd rfl (hn x)
        | .err e => exact fine_fail (by simp)
        | .panic => exact fine_fail (by simp)
        | .diverge => exact fine_fail (by simp)
      · rw [hr]
        have : Fine t' p' [m] (.ok (NV.leaf m v, t'), p') := fine_ok (by omega) (by simp [NV.nodes]) (by simp [NV.nodes])
        exact Fine.from hl (by simp; omega) (by simp; exact hnew) this

/-- One whole parse: the arena is the same, its size unchanged, at most one request per byte of the input
(even if the input is refused), and the nodes of the result are distinct and were all handed out. -/
theorem parseIn_fine (E : Env) (cnt : Nat) (b : Bytes) :
    Later (Pool.new cnt) (parseIn E cnt b).2 ∧ (parseIn E cnt b).2.actual ≤ b.length ∧
    ∀ v, (parseIn E cnt b).1 = .ok v → v.nodes.Nodup ∧ ∀ n ∈ v.nodes, Issued (parseIn E cnt b).2 n := by
  unfold parseIn unmarshalWithIterN
  have hsk := skipBlanks_length b
  match h : skipBlanks b with
  | [] => exact ⟨.refl _, by simp [Pool.new], by simp⟩
  | c :: t =>
    rw [h] at hsk; simp only [List.length_cons] at hsk
    have hf := parseValueN_fine E (b.length + 1) c t (Pool.new cnt) (by omega)
    simp only
    revert hf
    match parseValueN E (b.length + 1) c t (Pool.new cnt) with
    | (r, p) =>
      intro ⟨h1, h2, h3⟩
      have h2' : p.actual ≤ b.length := by simp [Pool.new] at h2; omega
      match r with
      | .ok (v, t') =>
        simp only [PR.andThen]
        split
        · refine ⟨h1, h2', fun v' hv' => ?_⟩
          simp only [R.ok.injEq] at hv'
          subst hv'
          obtain ⟨-, h4, h5⟩ := h3 v t' rfl
          refine ⟨h4, fun n hn => ?_⟩
          rcases h5 n hn with h | h
          · cases h
          · exact h.1
        · exact ⟨h1, h2', by simp⟩
      | .err e => exact ⟨h1, h2', by simp [PR.andThen]⟩
      | .panic => exact ⟨h1, h2', by simp [PR.andThen]⟩
      | .diverge => exact ⟨h1, h2', by simp [PR.andThen]⟩

/-! ### from the list of nodes to positions -/

open Spec in
theorem at_node_mem {v x : NV} {p : List Nat} (h : At v p x) : nodeOf x ∈ v.nodes := by
  induction h with
  | here v => cases v <;> simp [nodeOf, NV.nodes]
  | @elem n xs i x y p h _ ih =>
    simp only [NV.nodes]
    refine List.mem_cons_of_mem _ ?_
    induction xs generalizing i with
    | nil => simp at h
    | cons a xs ihx =>
      simp only [NV.nodesL, List.mem_append]
      cases i with
      | zero => simp at h; subst h; exact .inl ih
      | succ i => exact .inr (ihx h)
  | @member n c kvs i k id x y p h _ ih =>
    simp only [NV.nodes]
    refine List.mem_cons_of_mem _ ?_
    induction kvs generalizing i with
    | nil => simp at h
    | cons a xs ihx =>
      simp only [NV.nodesM, List.mem_append]
      cases i with
      | zero => simp at h; subst h; exact .inl ih
      | succ i => exact .inr (ihx h)

theorem nodesL_get {xs : List NV} {i : Nat} {x : NV} (h : xs[i]? = some x) :
    (∀ n ∈ x.nodes, n ∈ NV.nodesL xs) := by
  intro n hn
  induction xs generalizing i with
  | nil => simp at h
  | cons a xs ih =>
    simp only [NV.nodesL, List.mem_append]
    cases i with
    | zero => simp at h; subst h; exact .inl hn
    | succ i => exact .inr (ih h)

theorem nodesM_get {xs : List (Bytes × BitVec 32 × NV)} {i : Nat} {k : Bytes} {id : BitVec 32} {x : NV} (h : xs[i]? = some (k, id, x)) :
    (∀ n ∈ x.nodes, n ∈ NV.nodesM xs) := by
  intro n hn
  induction xs generalizing i with
  | nil => simp at h
  | cons a xs ih =>
    simp only [NV.nodesM, List.mem_append]
    cases i with
    | zero => simp at h; subst h; exact .inl hn
    | succ i => exact .inr (ih h)

theorem nodesL_index {xs : List NV} (hd : (NV.nodesL xs).Nodup) {i j : Nat} {x y : NV} (hx : xs[i]? = some x) (hy : xs[j]? = some y)
    {n : Node} (hn : n ∈ x.nodes) (hm : n ∈ y.nodes) : i = j := by
  induction xs generalizing i j with
  | nil => simp at hx
  | cons a xs ih =>
    simp only [NV.nodesL, List.nodup_append] at hd
    cases i with
    | zero =>
      cases j with
      | zero => rfl
      | succ j =>
        simp at hx hy; subst hx
        exact absurd rfl (hd.2.2 n hn n (nodesL_get hy n hm))
    | succ i =>
      cases j with
      | zero =>
        simp at hx hy; subst hy
        exact absurd rfl (hd.2.2 n hm n (nodesL_get hx n hn))
      | succ j => simp at hx hy; rw [ih hd.2.1 hx hy]

theorem nodesM_index {xs : List (Bytes × BitVec 32 × NV)} (hd : (NV.nodesM xs).Nodup) {i j : Nat} {k k' : Bytes} {d d' : BitVec 32}
    {x y : NV} (hx : xs[i]? = some (k, d, x)) (hy : xs[j]? = some (k', d', y))
    {n : Node} (hn : n ∈ x.nodes) (hm : n ∈ y.nodes) : i = j := by
  induction xs generalizing i j with
  | nil => simp at hx
  | cons a xs ih =>
    simp only [NV.nodesM, List.nodup_append] at hd
    cases i with
    | zero =>
      cases j with
      | zero => rfl
      | succ j =>
        simp at hx hy; subst hx
        exact absurd rfl (hd.2.2 n hn n (nodesM_get hy n hm))
    | succ i =>
      cases j with
      | zero =>
        simp at hx hy; subst hy
        exact absurd rfl (hd.2.2 n hm n (nodesM_get hx n hn))
      | succ j => simp at hx hy; rw [ih hd.2.1 hx hy]

theorem nodesL_nodup_get {xs : List NV} (hd : (NV.nodesL xs).Nodup) {i : Nat} {x : NV} (h : xs[i]? = some x) : x.nodes.Nodup := by
  induction xs generalizing i with
  | nil => simp at h
  | cons a xs ih =>
    simp only [NV.nodesL, List.nodup_append] at hd
    cases i with
    | zero => simp at h; subst h; exact hd.1
    | succ i => exact ih hd.2.1 h

theorem nodesM_nodup_get {xs : List (Bytes × BitVec 32 × NV)} (hd : (NV.nodesM xs).Nodup) {i : Nat} {k : Bytes} {d : BitVec 32} {x : NV}
    (h : xs[i]? = some (k, d, x)) : x.nodes.Nodup := by
  induction xs generalizing i with
  | nil => simp at h
  | cons a xs ih =>
    simp only [NV.nodesM, List.nodup_append] at hd
    cases i with
    | zero => simp at h; subst h; exact hd.1
    | succ i => exact ih hd.2.1 h

open Spec in
theorem noSharing_of_nodup {v : NV} (hd : v.nodes.Nodup) : NoSharing v := by
  intro p q x y hp hq heq
  induction hp generalizing q y with
  | here v =>
    cases hq with
    | here => rfl
    | elem h hp' =>
      simp only [NV.nodes, List.nodup_cons] at hd
      refine absurd ?_ hd.1
      have := nodesL_get h _ (at_node_mem hp')
      rw [← heq] at this; exact this
    | member h hp' =>
      simp only [NV.nodes, List.nodup_cons] at hd
      refine absurd ?_ hd.1
      have := nodesM_get h _ (at_node_mem hp')
      rw [← heq] at this; exact this
  | @elem n xs i x z p h hp ih =>
    simp only [NV.nodes, List.nodup_cons] at hd
    cases hq with
    | here =>
      refine absurd ?_ hd.1
      have := nodesL_get h _ (at_node_mem hp)
      rw [heq] at this; exact this
    | @elem _ _ j x' _ p' h' hp' =>
      have hij : i = j := nodesL_index hd.2 h h' (at_node_mem hp) (heq ▸ at_node_mem hp')
      subst hij
      rw [h] at h'; simp at h'; subst h'
      rw [ih (nodesL_nodup_get hd.2 h) _ _ hp' heq]
  | @member n c xs i k id x z p h hp ih =>
    simp only [NV.nodes, List.nodup_cons] at hd
    cases hq with
    | here =>
      refine absurd ?_ hd.1
      have := nodesM_get h _ (at_node_mem hp)
      rw [heq] at this; exact this
    | @member _ _ _ j k' id' x' _ p' h' hp' =>
      have hij : i = j := nodesM_index hd.2 h h' (at_node_mem hp) (heq ▸ at_node_mem hp')
      subst hij
      rw [h] at h'; simp at h'; obtain ⟨-, -, rfl⟩ := h'
      rw [ih (nodesM_nodup_get hd.2 h) _ _ hp' heq]

end JV
