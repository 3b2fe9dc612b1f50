import Verif.Proofs.Order
import Verif.Proofs.Layout
import Verif.Proofs.MarshalApi
import Verif.Proofs.EscBytes
import Verif.Proofs.Options
/-! The order of setting, less functions and iteration. -/
namespace JV
open Spec

variable {E : Env} {S : SortFn} {o : Opt} {T : Escaper}

/-- the members in the order of their ids, which are at most the counter -/
def Seqd (n : BitVec 32) (kvs es : List Ent) : Prop :=
  es.Perm kvs ∧ es.Pairwise (fun a b => a.id.toNat < b.id.toNat) ∧ ∀ e ∈ es, e.id.toNat ≤ n.toNat

def pairs (es : List Ent) : List (Bytes × V) := es.map fun e => (e.key, e.v)

theorem without_pairs (k : Bytes) (es : List Ent) : without k (pairs es) = pairs (es.filter fun e => e.key ≠ k) := by
  unfold without pairs
  rw [List.filter_map]
  rfl

theorem assoc_pairs (es : List Ent) (k : Bytes) : assoc (pairs es) k = (lookup k es).map Ent.v := by
  induction es with
  | nil => rfl
  | cons e es ih =>
    have e1 : lookup k (e :: es) = if e.key = k then some e else lookup k es := by cases e; rfl
    rw [e1]
    unfold assoc pairs at *
    rw [List.map_cons, List.find?_cons]
    by_cases h : e.key = k
    · simp [h]
    · simp only [h, decide_false, if_false]; exact ih

theorem lookup_perm {kvs es : List Ent} (hn : (keys kvs).Nodup) (hp : es.Perm kvs) (k : Bytes) : lookup k es = lookup k kvs := by
  have hn' : (keys es).Nodup := (hp.map Ent.key).nodup_iff.2 hn
  cases h : lookup k es with
  | some e =>
    obtain ⟨rfl, hm⟩ := lookup_some_key h
    exact (lookup_mem hn (hp.mem_iff.1 hm)).symm
  | none =>
    rw [lookup_none] at h
    exact (lookup_none.2 fun hk => h ((hp.map Ent.key).mem_iff.2 hk)).symm

theorem filter_none {k : Bytes} {kvs : List Ent} (h : k ∉ keys kvs) : (kvs.filter fun e => e.key ≠ k) = kvs := by
  rw [List.filter_eq_self]
  intro e he
  have : e.key ≠ k := fun h' => h (h' ▸ List.mem_map_of_mem he)
  simpa using this

theorem assign_perm (e : Ent) : ∀ kvs : List Ent, (keys kvs).Nodup → (assign e kvs).Perm ((kvs.filter fun x => x.key ≠ e.key) ++ [e])
  | [], _ => .refl _
  | x :: xs, hn => by
    rw [keys_cons, List.nodup_cons] at hn
    unfold assign
    by_cases h : x.key = e.key
    · rw [if_pos h, List.filter_cons_of_neg (by simpa using h), filter_none (h ▸ hn.1)]
      exact (List.perm_append_singleton e xs).symm
    · rw [if_neg h, List.filter_cons_of_pos (by simpa using h), List.cons_append]
      exact (assign_perm e xs hn.2).cons x

theorem erase_filter (k : Bytes) : ∀ kvs : List Ent, (keys kvs).Nodup → erase k kvs = kvs.filter fun x => x.key ≠ k
  | [], _ => rfl
  | x :: xs, hn => by
    rw [keys_cons, List.nodup_cons] at hn
    unfold erase
    by_cases h : x.key = k
    · rw [if_pos h, List.filter_cons_of_neg (by simpa using h), filter_none (h ▸ hn.1)]
    · rw [if_neg h, List.filter_cons_of_pos (by simpa using h), erase_filter k xs hn.2]

theorem seqd_set {n : BitVec 32} {kvs es : List Ent} (hn : (keys kvs).Nodup) (h : Seqd n kvs es) (hlt : n.toNat + 1 < 2 ^ 32) (k : Bytes) (c : V) :
    Seqd (n + 1) (assign ⟨k, n + 1, c⟩ kvs) ((es.filter fun e => e.key ≠ k) ++ [⟨k, n + 1, c⟩]) := by
  have hnat : (n + 1).toNat = n.toNat + 1 := by rw [BitVec.toNat_add]; exact Nat.mod_eq_of_lt hlt
  obtain ⟨h1, h2, h3⟩ := h
  refine ⟨((h1.filter _).append_right _).trans (assign_perm ⟨k, n + 1, c⟩ kvs hn).symm, ?_, ?_⟩
  · rw [List.pairwise_append]
    refine ⟨h2.filter _, by simp, ?_⟩
    intro a ha b hb
    have := h3 a (List.mem_filter.1 ha).1
    rw [List.mem_singleton] at hb; subst hb
    show a.id.toNat < (n + 1).toNat
    omega
  · intro e he
    rcases List.mem_append.1 he with he | he
    · have := h3 e (List.mem_filter.1 he).1; omega
    · rw [List.mem_singleton] at he; subst he; exact Nat.le_refl _

theorem seqd_erase {n : BitVec 32} {kvs es : List Ent} (hn : (keys kvs).Nodup) (h : Seqd n kvs es) (k : Bytes) :
    Seqd n (erase k kvs) (es.filter fun e => e.key ≠ k) := by
  rw [erase_filter k kvs hn]
  exact ⟨h.1.filter _, h.2.1.filter _, fun e he => h.2.2 e (List.mem_filter.1 he).1⟩

theorem seqd_members {n : BitVec 32} {kvs es : List Ent} {low : Low} (hn : (keys kvs).Nodup) (h : Seqd n kvs es) : assoc (pairs es) = members (.obj n kvs low) := by
  funext k
  rw [assoc_pairs, lookup_perm hn h.1]
  rfl

theorem setCount_cons (op : ObjOp) (ops : List ObjOp) : setCount ops ≤ setCount (op :: ops) := by cases op <;> simp [setCount]

theorem objRun_seq {v w : V} {ops : List ObjOp} (h : ObjRun E v ops w) : ∀ n kvs low es, v = .obj n kvs low → GoodNode E v → Seqd n kvs es →
    n.toNat + setCount ops < 2 ^ 32 → ∃ n' kvs' low' es', w = .obj n' kvs' low' ∧ Seqd n' kvs' es' ∧ SeqRun E (pairs es) ops (pairs es') := by
  induction h with
  | nil v => intro n kvs low es hv hg hs _; exact ⟨n, kvs, low, es, hv, hs, .nil _⟩
  | reorder v v' ops w hr _ ih =>
    intro n kvs low es hv hg hs hc
    subst hv
    have hg' := reorder_good hr hg
    cases hr with
    | mk n kvs kvs' low low' hp hl => exact ih n kvs' low' es rfl hg' ⟨hs.1.trans hp, hs.2⟩ hc
  | cons v op ops w _ ih =>
    intro n kvs low es hv hg hs hc
    subst hv
    have hg' := (run_good ⟨_, _, _, rfl⟩ hg op).2
    cases op with
    | set k c =>
      simp only [setCount] at hc
      rcases run_set E (v := .obj n kvs low) ⟨_, _, _, rfl⟩ k c with ⟨hcu, hr⟩ | ⟨hcu, n0, kvs0, low0, he, hr⟩
      · rw [hr] at ih hg'
        obtain ⟨n', kvs', low', es', h1, h2, h3⟩ := ih n kvs low es rfl hg' hs (by omega)
        exact ⟨n', kvs', low', es', h1, h2, .setBad _ _ _ _ _ hcu h3⟩
      · cases he
        have hnat : (n + 1).toNat = n.toNat + 1 := by rw [BitVec.toNat_add]; exact Nat.mod_eq_of_lt (by show n.toNat + 1 < 2 ^ 32; omega)
        obtain ⟨n', kvs', low', es', h1, h2, h3⟩ := ih (n + 1) _ _ _ hr hg' (seqd_set hg.1 hs (by omega) k c) (by omega)
        refine ⟨n', kvs', low', es', h1, h2, .set _ _ _ _ _ hcu ?_⟩
        rw [without_pairs]
        simpa [pairs, Ent.key, Ent.v] using h3
    | del k =>
      simp only [setCount] at hc
      simp only [ObjOp.run, delete_one, deleteLast_str, findKey_false] at ih hg'
      cases hl : lookup k kvs with
      | some e =>
        simp only [hl, Option.isSome_some, if_true] at ih hg'
        obtain ⟨n', kvs', low', es', h1, h2, h3⟩ := ih n _ _ _ rfl hg' (seqd_erase hg.1 hs k) hc
        exact ⟨n', kvs', low', es', h1, h2, .del _ _ _ _ (by rw [without_pairs]; exact h3)⟩
      | none =>
        simp only [hl, Option.isSome_none, Bool.false_eq_true, if_false] at ih hg'
        obtain ⟨n', kvs', low', es', h1, h2, h3⟩ := ih n _ _ es rfl hg' hs hc
        refine ⟨n', kvs', low', es', h1, h2, .del _ _ _ _ ?_⟩
        rw [without_pairs, filter_none]
        · exact h3
        · exact lookup_none.1 ((lookup_perm hg.1 hs.1 k).trans hl)
    | cdel k =>
      simp only [setCount] at hc
      simp only [ObjOp.run, delete_one, deleteLast_str] at ih hg'
      rcases findKey_picks (n := n) hg.2 k with ⟨k', hf, hp⟩ | ⟨hf, hp⟩
      · rw [hf] at ih hg'
        obtain ⟨n', kvs', low', es', h1, h2, h3⟩ := ih n _ _ _ rfl hg' (seqd_erase hg.1 hs k') hc
        refine ⟨n', kvs', low', es', h1, h2, .cdel _ _ k' _ _ (by rw [seqd_members (low := low) hg.1 hs]; exact hp) (by rw [without_pairs]; exact h3)⟩
      · rw [hf] at ih hg'
        obtain ⟨n', kvs', low', es', h1, h2, h3⟩ := ih n _ _ _ rfl hg' hs hc
        refine ⟨n', kvs', low', es', h1, h2, .cdelNone _ _ _ _ (by rw [seqd_members (low := low) hg.1 hs]; exact hp) h3⟩
    | get k =>
      simp only [setCount] at hc
      simp only [ObjOp.run, getC, resolve_one] at ih hg'
      rw [resolve1_locate _ _ _ _ rfl, locate_str] at ih hg'
      obtain ⟨n', kvs', low', es', h1, h2, h3⟩ := ih n _ _ _ rfl hg' hs hc
      exact ⟨n', kvs', low', es', h1, h2, .get _ _ _ _ h3⟩
    | cget k =>
      simp only [setCount] at hc
      simp only [ObjOp.run, getC, resolve_one] at ih hg'
      rw [resolve1_locate _ _ _ _ rfl, locate_str] at ih hg'
      obtain ⟨n', kvs', low', es', h1, h2, h3⟩ := ih n _ _ _ rfl hg' hs hc
      exact ⟨n', kvs', low', es', h1, h2, .cget _ _ _ _ h3⟩

theorem new_good : GoodNode E newObject := built_good (E := E) (L := Any) .object [] _ rfl

theorem seqd_new : Seqd 0 [] [] := ⟨.refl _, .nil, by simp⟩

/-- sorting by id gives back that order -/
theorem sort_ids (hS : GoodSort S) {n : BitVec 32} {kvs es : List Ent} (h : Seqd n kvs es) {less : Ent → Ent → Bool}
    (hl : ∀ a b, a ∈ kvs → b ∈ kvs → a.id ≠ b.id → less a b = decide (a.id.toNat < b.id.toNat)) : sortBy S less kvs = es := by
  have hw : StrictWeak fun a b : Ent => decide (a.id.toNat < b.id.toNat) := by
    constructor <;> simp <;> omega
  have hne : kvs.Pairwise fun a b => a.id ≠ b.id := by
    have : es.Pairwise fun a b => a.id ≠ b.id := h.2.1.imp fun h' he => by rw [he] at h'; omega
    exact (h.1.pairwise_iff fun h' => h'.symm).1 this
  have hs := sortBy_sorted hS hw kvs (less := less) (by
    intro i j a b ha hb hij
    refine hl a b (List.mem_of_getElem? ha) (List.mem_of_getElem? hb) ?_
    rw [List.pairwise_iff_getElem] at hne
    obtain ⟨hi, rfl⟩ := List.getElem?_eq_some_iff.1 ha
    obtain ⟨hj, rfl⟩ := List.getElem?_eq_some_iff.1 hb
    rcases Nat.lt_or_gt_of_ne hij with h' | h'
    · exact hne i j hi hj h'
    · exact (hne j i hj hi h').symm)
  have hp := sortBy_perm hS less kvs
  have hne' : (sortBy S less kvs).Pairwise fun a b => a.id ≠ b.id := (hp.pairwise_iff fun h' => h'.symm).2 hne
  refine perm_sorted_unique (hp.trans h.1.symm) (r := fun a b => a.id.toNat < b.id.toNat) ?_ h.2.1 fun a _ b _ h1 h2 => by omega
  refine (hs.and hne').imp ?_
  rintro a b ⟨h1, h2⟩
  have : a.id.toNat ≠ b.id.toNat := fun h' => h2 (BitVec.eq_of_toNat_eq h')
  simp only [decide_eq_false_iff_not] at h1
  omega

theorem sorted_bySet (hS : GoodSort S) (ho : orderOf o = .bySet) {n : BitVec 32} {kvs es : List Ent} (hn : (keys kvs).Nodup) (h : Seqd n kvs es) (par : Option ParentInfo) :
    sorted S o par kvs = es := by
  obtain ⟨h1, h2, h3⟩ := orderOf_bySet ho
  rw [sorted_eq, h1]
  simp only [h2, h3, List.length_nil, gt_iff_lt, Nat.lt_irrefl, if_false, if_true]
  refine sort_ids hS h fun a b ha hb hab => ?_
  simp [seqLess, idMap, lookup_mem hn ha, lookup_mem hn hb]

/-! ### ranges -/

theorem visit_visits {σ α : Type} (f : Callback σ α) : ∀ (l : List (α × V)) (s s' : σ), visit f l s = s' ↔ Visits f l s s'
  | [], s, s' => ⟨fun h => by cases h; exact .nil s, fun h => by cases h; rfl⟩
  | (k, c) :: l, s, s' => by
    unfold visit
    cases hf : f s k c with
    | mk s1 b =>
      cases b with
      | true =>
        simp only
        rw [visit_visits f l]
        constructor
        · exact fun h => .go _ _ _ _ _ _ hf h
        · intro h
          cases h with
          | stop _ _ _ _ _ h' => rw [hf] at h'; cases h'
          | go _ _ _ _ _ _ h' h2 => rw [hf] at h'; cases h'; exact h2
      | false =>
        simp only
        constructor
        · rintro rfl; exact .stop _ _ _ _ _ hf
        · intro h
          cases h with
          | stop _ _ _ _ _ h' => rw [hf] at h'; cases h'; rfl
          | go _ _ _ _ _ _ h' h2 => rw [hf] at h'; cases h'

theorem indexed_get : ∀ (xs : List V) (i j : Nat), (indexed i xs)[j]? = (xs[j]?).map fun x => (i + j, x)
  | [], _, _ => rfl
  | x :: xs, i, 0 => rfl
  | x :: xs, i, j + 1 => by
    unfold indexed
    rw [List.getElem?_cons_succ, List.getElem?_cons_succ, indexed_get xs (i + 1) j]
    congr 1; funext y; congr 1; omega

/-! ### less functions -/

theorem sortBy_congr {α : Type} {f g : α → α → Bool} {l : List α} (h : ∀ a ∈ l, ∀ b ∈ l, f a b = g a b) : sortBy S f l = sortBy S g l := by
  unfold sortBy
  have : lessAt f l = lessAt g l := by
    funext i j
    unfold lessAt
    cases hi : l[i]? with
    | none => rfl
    | some a =>
      cases hj : l[j]? with
      | none => rfl
      | some b => exact h a (List.mem_of_getElem? hi) b (List.mem_of_getElem? hj)
  rw [this]

theorem doc_less {f g : LessFn} (root : V) (h : ∀ p a b, CalledWith root p a b → f p a.key b.key a.v b.v = g p a.key b.key a.v b.v) (v : V) (hk : Her KeysNodup v)
    (l : List Step) (hr : root.at l = some v) (par : Option ParentInfo) (hi : InfoAt l par) (hp : ParentAt root l par) :
    doc E S { o with lessFunc := some f } T v par = doc E S { o with lessFunc := some g } T v par := by
  induction v using kid_ind generalizing l par with
  | step v ih =>
    have ihk : ∀ c (s : Step), v.child s = some c → ∀ w : V, w = stepParent v c s → doc E S { o with lessFunc := some f } T c (some (newParentInfo w par (stepKey s))) =
        doc E S { o with lessFunc := some g } T c (some (newParentInfo w par (stepKey s))) := fun c s hs w hw =>
      ih c (child_kid hs) (her_kid hk hk (child_kid hs)) _ (by rw [at_append, hr, Option.bind_some, at_one, hs]) _ (infoAt_step hi) (parentAt_step hr hs hw)
    cases v with
    | arr xs =>
      conv => lhs; unfold doc
      conv => rhs; unfold doc
      split
      · rfl
      · congr 1
        have : ∀ (ys : List V) (i : Nat), (∀ (j : Nat) y, ys[j]? = some y → xs[i + j]? = some y) →
            docElems E S { o with lessFunc := some f } T (.arr xs) ys i par = docElems E S { o with lessFunc := some g } T (.arr xs) ys i par := by
          intro ys
          induction ys with
          | nil => intro i _; unfold docElems; rfl
          | cons y ys ih2 =>
            intro i hys
            unfold docElems
            rw [ih2 (i + 1) fun j z hz => by rw [show i + 1 + j = i + (j + 1) by omega]; exact hys (j + 1) z (by simpa using hz)]
            congr 1
            exact ihk y (.idx i) (by simpa [V.child] using hys 0 y rfl) (.arr xs) rfl
        exact this xs 0 fun j y hy => by simpa using hy
    | obj n kvs low =>
      by_cases h0 : kvs = []
      · subst h0; simp [doc]
      · have hs : sorted S { o with lessFunc := some f } par kvs = sorted S { o with lessFunc := some g } par kvs := by
          rw [sorted_eq, sorted_eq]
          exact sortBy_congr fun a ha b hb => h par a b ⟨l, n, kvs, low, hr, hi, hp, ha, hb⟩
        rw [doc_obj _ _ _ _ h0, doc_obj _ _ _ _ h0, hs]
        congr 1
        have hm : ∀ e ∈ sorted S { o with lessFunc := some g } par kvs, e ∈ kvs := fun e he => sorted_mem he
        generalize sorted S { o with lessFunc := some g } par kvs = es at hm
        have : ∀ fw, docMems { o with lessFunc := some f } T par fw (es.map fun e => (e, doc E S { o with lessFunc := some f } T e.v)) =
            docMems { o with lessFunc := some g } T par fw (es.map fun e => (e, doc E S { o with lessFunc := some g } T e.v)) := by
          clear hs
          induction es with
          | nil => intro fw; rfl
          | cons e es ih2 =>
            intro fw
            have ih2 := ih2 fun x hx => hm x (by simp [hx])
            simp only [List.map_cons, docMems, ih2]
            split
            · rfl
            · congr 2
              exact ihk e.v (.key e.key) (by simp [V.child, lookup_mem_nodup (her_self hk) (hm e (by simp))]) e.v rfl
        exact this false
    | _ => simp only [doc] <;> rfl

/-! ### parsed objects -/

theorem toV_init (E : Env) (j : J) : (toV E j).uninit = false := by cases j <;> simp [toV, V.uninit]

theorem run_set_ok (n : BitVec 32) (kvs : List Ent) (k : Bytes) (c : V) (hc : c.uninit = false) :
    (ObjOp.set k c).run E (.obj n kvs none) = .obj (n + 1) (assign ⟨k, n + 1, c⟩ kvs) none := by
  rcases run_set E (v := .obj n kvs none) ⟨_, _, _, rfl⟩ k c with ⟨h, -⟩ | ⟨-, n0, kvs0, low0, he, hr⟩
  · rw [hc] at h; cases h
  · cases he; rw [hr]; rfl

theorem toVM_sets (E : Env) : ∀ (ms : List Mem) (st : OSt),
    V.obj (toVM E ms st).incr (toVM E ms st).kvs none =
      ((ms.map Mem.key).zip (ms.map fun m => toV E m.v)).foldl (fun v p => ObjOp.run E v (.set p.1 p.2)) (.obj st.incr st.kvs none)
  | [], st => by simp [toVM]
  | ⟨k, j⟩ :: ms, st => by
    rw [toVM, toVM_sets E ms]
    simp only [List.map_cons, List.zip_cons_cons, List.foldl_cons, Mem.key, Mem.v]
    rw [run_set_ok _ _ _ _ (toV_init E j)]
    rfl

theorem mem_sizeOf {m : Mem} {ms : List Mem} (h : m ∈ ms) : sizeOf m.v < sizeOf ms := by
  have := List.sizeOf_lt_of_mem h
  cases m with
  | mk k j => simp only [Mem.mk.sizeOf_spec, Mem.v] at *; omega

theorem toV_setInOrder (E : Env) (j : J) : SetInOrder E j (toV E j) := by
  match j with
  | .null => simp only [toV]; exact .null
  | .bool b => simp only [toV]; exact .bool b
  | .num t => simp only [toV]; exact .num t _
  | .str s => simp only [toV]; exact .str s
  | .arr xs =>
    simp only [toV]
    refine .arr xs _ (toVL_length E xs) ?_
    intro i x w hx hw
    rw [toVL_getElem, hx] at hw
    cases hw
    have := List.sizeOf_lt_of_mem (List.mem_of_getElem? hx)
    exact toV_setInOrder E x
  | .obj ms =>
    simp only [toV]
    rw [toVM_sets]
    refine .obj ms _ (by simp) ?_
    intro i m w hm hw
    rw [List.getElem?_map, hm] at hw
    cases hw
    have := mem_sizeOf (List.mem_of_getElem? hm)
    exact toV_setInOrder E m.v
termination_by sizeOf j
decreasing_by all_goals simp_wf <;> omega

theorem objRun_foldl (E : Env) : ∀ (l : List (Bytes × V)) (v : V), ObjRun E v (l.map fun p => .set p.1 p.2) (l.foldl (fun v p => ObjOp.run E v (.set p.1 p.2)) v)
  | [], v => .nil v
  | p :: l, v => .cons _ _ _ _ (objRun_foldl E l _)

/-! ### histories of Set only -/

theorem lastOnes_keys (l : List (Bytes × V)) (k : Bytes) : k ∈ (lastOnes l).map Prod.fst ↔ k ∈ l.map Prod.fst := by
  induction l with
  | nil => rfl
  | cons p l ih =>
    unfold lastOnes
    split
    · rename_i h
      rw [ih, List.map_cons, List.mem_cons]
      exact ⟨.inr, fun h' => h'.elim (fun h' => h' ▸ h) id⟩
    · rw [List.map_cons, List.map_cons, List.mem_cons, List.mem_cons, ih]

theorem seqRun_sets : ∀ (l L L' : List (Bytes × V)), (∀ p ∈ l, p.2.uninit = false) → SeqRun E L (l.map fun p => .set p.1 p.2) L' →
    L' = (L.filter fun p => p.1 ∉ l.map Prod.fst) ++ lastOnes l
  | [], L, L', _, h => by cases h; simp only [lastOnes, List.append_nil]; exact (List.filter_eq_self.2 fun _ _ => by simp).symm
  | p :: l, L, L', hp, h => by
    cases h with
    | setBad _ _ _ _ _ hc => rw [hp p (by simp)] at hc; cases hc
    | set _ _ _ _ _ _ h =>
      rw [seqRun_sets l _ L' (fun q hq => hp q (by simp [hq])) h]
      rw [show lastOnes (p :: l) = if p.1 ∈ l.map Prod.fst then lastOnes l else p :: lastOnes l from rfl]
      unfold without
      rw [List.filter_append, List.filter_filter, List.append_assoc]
      have e1 : (L.filter fun a => decide (a.1 ∉ l.map Prod.fst) && decide (a.1 ≠ p.1)) = L.filter fun q => q.1 ∉ (p :: l).map Prod.fst := by
        congr 1; funext a
        by_cases h1 : a.1 ∈ l.map Prod.fst <;> by_cases h2 : a.1 = p.1 <;> simp_all
      rw [e1]
      congr 1
      by_cases h1 : p.1 ∈ l.map Prod.fst
      · rw [if_pos h1, List.filter_cons_of_neg (by simpa using h1)]; rfl
      · rw [if_neg h1, List.filter_cons_of_pos (by simpa using h1)]; rfl

theorem setCount_sets (l : List (Bytes × V)) : setCount (l.map fun p => .set p.1 p.2) = l.length := by
  induction l with
  | nil => rfl
  | cons p l ih => simp [setCount, ih]

theorem lastOnes_replicate (p : Bytes × V) : ∀ n, lastOnes (List.replicate (n + 1) p) = [p]
  | 0 => by simp [lastOnes]
  | n + 1 => by
    rw [List.replicate_succ, lastOnes, if_pos (by rw [List.map_replicate]; simp), lastOnes_replicate p n]

/-- setting the same key over and over: only the counter moves -/
theorem sets_replicate (x : Bytes) (a b : V) (hx : x ≠ [0x61]) (hb : b.uninit = false) : ∀ (n : Nat) (c : BitVec 32),
    (List.replicate n ([0x61], b)).foldl (fun v p => ObjOp.run E v (.set p.1 p.2)) (.obj c [⟨x, 1, a⟩, ⟨[0x61], c, b⟩] none) =
      .obj (c + BitVec.ofNat 32 n) [⟨x, 1, a⟩, ⟨[0x61], c + BitVec.ofNat 32 n, b⟩] none
  | 0, c => by simp
  | n + 1, c => by
    rw [List.replicate_succ, List.foldl_cons, run_set_ok _ _ _ _ hb]
    have : assign ⟨[0x61], c + 1, b⟩ [⟨x, 1, a⟩, ⟨[0x61], c, b⟩] = [⟨x, 1, a⟩, ⟨[0x61], c + 1, b⟩] := by simp [assign, Ent.key, hx]
    rw [this, sets_replicate x a b hx hb n (c + 1)]
    have : c + 1 + BitVec.ofNat 32 n = c + BitVec.ofNat 32 (n + 1) := by
      rw [BitVec.ofNat_add n 1, BitVec.add_assoc, BitVec.add_comm 1]; rfl
    rw [this]

/-- what Marshal writes: the tokens of the value in the order that the options say -/
theorem marshal_lays {ord : List Step → List Ent → List Ent → Prop} {v : V} {opts : List MOpt} {b : Bytes} (hS : GoodSort S) (hv : Marshalable v)
    (ho : ∀ l par n kvs low, v.at l = some (.obj n kvs low) → (kvs.map Ent.key).Nodup → ((optOf emptyOptions opts).lessFunc.isSome = true → InfoAt l par ∧ ParentAt v l par) →
      ord l kvs (sorted S (optOf emptyOptions opts) par kvs))
    (h : marshal E S emptyOptions v opts = .ok (b, none)) :
    ∃ t, Lays (combineOptions emptyOptions opts) ord (Escaped (lastSet setsUTF8 opts false) (lastSet setsHTML opts true) (lastSet setsSlash opts true)) [] v t ∧
      b = t.print (lastSet setsIndent opts none) 0 := by
  obtain ⟨-, rfl⟩ := marshal_ok hv h
  refine ⟨doc E S (combineOptions emptyOptions opts) (escOf emptyOptions opts) v none, doc_lays hS ?_ v ho v hv.1 hv.2.1 [] rfl none fun _ => ⟨infoAt_root, parentAt_root v⟩, ?_⟩
  · intro s
    have h1 : escHas (opts.foldl MOpt.mergeTo emptyOptions).escProps escapeUTF8 = lastSet setsUTF8 opts false := set_utf8 opts
    have h2 : (!escHas (opts.foldl MOpt.mergeTo emptyOptions).escProps escapeWithoutHTML) = lastSet setsHTML opts true := set_html opts
    have h3 : (!escHas (opts.foldl MOpt.mergeTo emptyOptions).escProps escapeIgnoreSlash) = lastSet setsSlash opts true := set_slash opts
    refine ⟨_, Decodes_runes s, ?_⟩
    rw [← h1, ← h2, ← h3]
    exact escText_spec _ (Decodes_runes s)
  · unfold textOf
    have : (optOf emptyOptions opts).indent = lastSet setsIndent opts none := set_indent opts
    rw [this]
    rfl

theorem set_order (opts : List MOpt) : orderOf (optOf emptyOptions opts) = lastSet setsOrder opts .any := opt_field orderOf _ merge_order emptyOptions opts
theorem set_cache (opts : List MOpt) : (optOf emptyOptions opts).keySeqCache = none := fold_cache opts emptyOptions rfl

/-- a default set by SetDefaultMarshalOptions acts like options given first -/
theorem marshal_default (ds opts : List MOpt) (v : V) : marshal E S (setDefault ds) v opts = marshal E S emptyOptions v (ds ++ opts) :=
  marshal_agree (by rw [default_first]; exact ⟨rfl, rfl, rfl, ⟨rfl, rfl, rfl⟩, ⟨rfl, rfl, rfl, rfl⟩, rfl, rfl⟩) E S v

/-- an order that only looks at the keys makes the output independent of everything else -/
theorem marshal_same {S S' : SortFn} {r : Bytes → Bytes → Prop} {v w : V} {opts : List MOpt} (hS : GoodSort S) (hS' : GoodSort S') (hr : ∀ a b, r a b → ¬ r b a)
    (ho : ∀ S, GoodSort S → KeyOnly S (optOf emptyOptions opts) r) (hv : Marshalable v) (hw : Marshalable w) (h : Same v w) :
    marshal E S emptyOptions v opts = marshal E S' emptyOptions w opts := by
  rw [marshal_eq _ hv, marshal_eq _ hw, same_errOf h]
  unfold textOf
  rw [doc_same hS hS' (ho S hS) (ho S' hS') hr v w h hv.1 hw.1 none none]

theorem same_refl (v : V) : Same v v := by
  induction v using kid_ind with
  | step v ih =>
    cases v with
    | arr xs => exact .arr _ _ rfl fun i x y h1 h2 => by rw [h1] at h2; cases h2; exact ih x (List.mem_of_getElem? h1)
    | obj n kvs low =>
      refine .obj _ _ _ _ _ _ (fun _ => rfl) fun k c c' h1 h2 => ?_
      rw [h1] at h2; cases h2
      exact ih c (child_kid h1)
    | _ => exact .scalar _ trivial

theorem foldl_less : ∀ (os : List MOpt), (∀ op ∈ os, setsOrder op = none) → ∀ (o : Opt) (x : Option LessFn),
    os.foldl MOpt.mergeTo { o with lessFunc := x } = { os.foldl MOpt.mergeTo o with lessFunc := x }
  | [], _, _, _ => rfl
  | op :: os, h, o, x => by
    have : MOpt.mergeTo { o with lessFunc := x } op = { MOpt.mergeTo o op with lessFunc := x } := by
      have := h op (by simp)
      cases op with
      | less f => cases f <;> first | rfl | cases this
      | keySeq s => cases s <;> cases this
      | opt _ f s => cases f <;> cases s <;> cases this
      | setSeq => cases this
      | _ => rfl
    rw [List.foldl_cons, List.foldl_cons, this, foldl_less os (fun op hop => h op (by simp [hop]))]

/-- the output depends on a less function only through its answers on what `CalledWith` describes -/
theorem marshal_less {v : V} {pre post : List MOpt} {f g : LessFn} (hv : Marshalable v) (h : ∀ p a b, CalledWith v p a b → f p a.key b.key a.v b.v = g p a.key b.key a.v b.v)
    (hpost : ∀ op ∈ post, setsOrder op = none) :
    marshal E S emptyOptions v (pre ++ .less (some f) :: post) = marshal E S emptyOptions v (pre ++ .less (some g) :: post) := by
  have e : optOf emptyOptions (pre ++ .less (some f) :: post) = { optOf emptyOptions (pre ++ .less (some g) :: post) with lessFunc := some f } ∧
      optOf emptyOptions (pre ++ .less (some g) :: post) = { optOf emptyOptions (pre ++ .less (some g) :: post) with lessFunc := some g } := by
    unfold optOf combineOptions Opt.combineFrom
    simp only [List.foldl_append, List.foldl_cons]
    generalize pre.foldl MOpt.mergeTo emptyOptions = o0
    have h1 : ∀ x : LessFn, MOpt.mergeTo o0 (.less (some x)) = { MOpt.mergeTo o0 (.less (some g)) with lessFunc := some x } := fun x => rfl
    rw [h1 f, foldl_less post hpost, show MOpt.mergeTo o0 (.less (some g)) = { MOpt.mergeTo o0 (.less (some g)) with lessFunc := some g } from rfl, foldl_less post hpost]
    exact ⟨rfl, rfl⟩
  have ht : ∀ T, doc E S (optOf emptyOptions (pre ++ .less (some f) :: post)) T v none = doc E S (optOf emptyOptions (pre ++ .less (some g) :: post)) T v none := by
    intro T
    rw [e.1]
    conv => rhs; rw [e.2]
    exact doc_less v h v hv.1 [] rfl none infoAt_root (parentAt_root v)
  rw [marshal_eq _ hv, marshal_eq _ hv]
  have h1 : errOf (optOf emptyOptions (pre ++ .less (some f) :: post)) v = errOf (optOf emptyOptions (pre ++ .less (some g) :: post)) v := by rw [e.1]; rfl
  have h2 : escOf emptyOptions (pre ++ .less (some f) :: post) = escOf emptyOptions (pre ++ .less (some g) :: post) := by unfold escOf; rw [e.1]
  have h3 : (optOf emptyOptions (pre ++ .less (some f) :: post)).indent = (optOf emptyOptions (pre ++ .less (some g) :: post)).indent := by rw [e.1]
  unfold textOf
  rw [h1, h2, h3, ht]

end JV
