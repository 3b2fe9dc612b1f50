import Verif.Proofs.History
/-! One object as a map, one array as a list. -/
namespace JV
open Spec

def IsObj (v : V) : Prop := ∃ n kvs low, v = .obj n kvs low

theorem run_set (E : Env) {v : V} (hv : IsObj v) (k : Bytes) (c : V) :
    (c.uninit = true ∧ (ObjOp.set k c).run E v = v) ∨
    (c.uninit = false ∧ ∃ n kvs low, v = .obj n kvs low ∧ (ObjOp.set k c).run E v = setKey E n kvs low k c) := by
  obtain ⟨n, kvs, low, rfl⟩ := hv
  simp only [ObjOp.run, set, setAt_one]
  rw [setAt1_plain _ _ _ _ rfl]
  cases hc : c.uninit with
  | true => left; simp
  | false => right; exact ⟨rfl, n, kvs, low, rfl, by simp [atLastParam, anyToString, V.uninit]⟩

theorem members_setKey {E : Env} {n kvs low k c} : members (setKey E n kvs low k c) = fun x => if x = k then some c else members (.obj n kvs low) x := by
  funext x
  by_cases h : x = k
  · subst h; simp [members, child_setKey_self]
  · simp only [h, if_false, members]
    exact child_setKey_ne _ _ _ _ _ _ _ (by intro hh; cases hh; exact h rfl)

theorem members_erase {n kvs low low' k} (hn : (keys kvs).Nodup) :
    members (.obj n (erase k kvs) low') = fun x => if x = k then none else members (.obj n kvs low) x := by
  funext x
  simp only [members, child_key, lookup_erase _ _ _ hn, eq_comm (a := k)]
  split <;> rfl

theorem members_low {n kvs low low'} : members (.obj n kvs low) = members (.obj n kvs low') := rfl

theorem deleteLast_str (E : Env) (cl : Bool) (n kvs low k) : deleteLast E cl (.obj n kvs low) (.str k) =
    match (findKey E cl kvs low k).2 with
    | some k' => (.obj n (erase k' kvs) (delCaseless E (findKey E cl kvs low k).1 k'), .ok ())
    | none => (.obj n kvs (findKey E cl kvs low k).1, .err .notFound) := by
  unfold deleteLast
  simp only [anyToString, delKey]
  cases hf : findKey E cl kvs low k with
  | mk low' r => cases r <;> rfl

theorem delete_one (E : Env) (cl : Bool) (v : V) (k : Bytes) : delete E cl v [.str k] = deleteLast E cl v (.str k) := by
  unfold delete; rw [deleteAt_one]; rfl

theorem sameObs_replace {d : V} : ∀ {l : List Step} {v w a : V}, SameObs v w → v.at l = some a → SameObs a d → SameObs v (replace w l d)
  | [], v, w, a, _, ha, hd => by cases ha; exact hd
  | s :: l, v, w, a, h, ha, hd => by
    simp only [V.at] at ha
    cases hv : v.child s with
    | none => rw [hv] at ha; cases ha
    | some c =>
      rw [hv] at ha
      have h2 := (sameObs_iff.1 h).2 s
      rw [hv] at h2
      cases hw : w.child s with
      | none => rw [hw] at h2; exact h2.elim
      | some c' =>
        rw [hw] at h2
        have : replace w (s :: l) d = w.put s (replace c' l d) := by simp [replace, hw]
        rw [this]
        exact sameObs_put h hv (sameObs_replace h2 ha hd)

/-- deleting with the last parameter -/
theorem deleteLast_cstep {E : Env} {a : V} (hg : GoodNode E a) (p : Param) :
    (∃ s, CStep E a p s ∧ (deleteLast E true a p).2 = .ok () ∧ Taken a s (deleteLast E true a p).1) ∨
    ((∀ s, ¬ CStep E a p s) ∧ (∃ e, (deleteLast E true a p).2 = .err e) ∧ SameObs a (deleteLast E true a p).1) ∨ a = .nilp := by
  cases a with
  | nilp => exact .inr (.inr rfl)
  | arr xs =>
    rw [deleteLast_arr]
    cases hz : intOf p with
    | none => exact .inr (.inl ⟨(fun s h => by cases h with | idx _ _ z i h1 h2 => rw [hz] at h1; cases h1), ⟨_, rfl⟩, SameObs.refl _⟩)
    | some z =>
      simp only
      cases hi : index xs.length z with
      | none => exact .inr (.inl ⟨(fun s h => by cases h with | idx _ _ z i h1 h2 => rw [hz] at h1; cases h1; rw [hi] at h2; cases h2), ⟨_, rfl⟩, SameObs.refl _⟩)
      | some i => exact .inl ⟨.idx i, .idx _ _ _ _ hz hi, rfl, .idx _ _ (index_lt hi)⟩
  | obj n kvs low =>
    cases hs : anyToString p with
    | ok k =>
      have hp : p = .str k := by cases p <;> simp [anyToString] at hs; rw [hs]
      subst hp
      rw [deleteLast_str]
      rcases findKey_picks (n := n) hg.2 k with ⟨k', h1, h2⟩ | ⟨h1, h2⟩
      · rw [h1]
        exact .inl ⟨.key k', .key _ _ _ _ _ h2, rfl, .key _ _ _ _ _ _ fun x => congrFun (members_erase (low := low) hg.1) x⟩
      · rw [h1]
        refine .inr (.inl ⟨(fun s h => by cases h with | key _ _ _ _ k' h => exact h2 k' h), ⟨_, rfl⟩, ?_⟩)
        rw [sameObs_iff]
        refine ⟨rfl, fun s => ?_⟩
        rw [child_low n kvs (findKey E true kvs low k).1 low]
        cases (V.obj n kvs low).child s with
        | none => trivial
        | some c => exact SameObs.refl c
    | _ =>
      refine .inr (.inl ⟨(fun s h => by cases h with | key _ _ _ _ k' h => cases hs), ?_, ?_⟩) <;>
        cases p <;> simp [deleteLast, anyToString, SameObs.refl] at hs ⊢
  | _ => exact .inr (.inl ⟨(fun s h => nomatch h), ⟨_, rfl⟩, SameObs.refl _⟩)

theorem deleteAt_last_cl (E : Env) (v : V) (a : Param) (pre : List Param) (p : Param) (ha : a.isSlice = false) :
    deleteAt E true v (a :: pre) [p] = match resolve E true v (a :: pre) with
        | (v, .ok l) => v.modify (fun w => deleteAt1 E true w p) l
        | (v, .err e) => (v, .err e)
        | (v, .panic) => (v, .panic)
        | (v, .diverge) => (v, .diverge) := by
  conv => lhs; unfold deleteAt
  rw [if_neg (by simp)]
  simp only [ha, Bool.false_eq_true, if_false]
  rfl

/-- Caseless().Delete along a path -/
theorem deleteAt_cpath {E : Env} {v : V} {pre : List Param} {p : Param} (hp : Plain (pre ++ [p])) (hg : Her (GoodNode E) v) (hn : NoNil v) :
    (∃ l a s b, CAddr E v pre l ∧ v.at l = some a ∧ CStep E a p s ∧ Taken a s b ∧ (delete E true v (pre ++ [p])).2 = .ok () ∧
      (delete E true v (pre ++ [p])).1.at l = some b ∧ ∀ m, Parts l m → ((delete E true v (pre ++ [p])).1.at m).map info = (v.at m).map info) ∨
    ((∃ e, (delete E true v (pre ++ [p])).2 = .err e) ∧ SameObs v (delete E true v (pre ++ [p])).1 ∧
      ∃ pre' q post l a, pre ++ [p] = pre' ++ q :: post ∧ CAddr E v pre' l ∧ v.at l = some a ∧ ∀ s, ¬ CStep E a q s) := by
  have hps : p.isSlice = false := hp p (by simp)
  unfold delete
  rw [deleteAt_pre, List.nil_append]
  cases pre with
  | nil =>
    rw [deleteAt_one, deleteAt1_nonslice _ _ _ _ hps]
    rcases deleteLast_cstep (hg [] v rfl) p with ⟨s, h1, h2, h3⟩ | ⟨h1, h2, h3⟩ | rfl
    · exact .inl ⟨[], v, s, _, .nil _, rfl, h1, h3, h2, rfl, fun m hm => by cases hm⟩
    · exact .inr ⟨h2, h3, [], p, [], [], v, rfl, .nil _, rfl, h1⟩
    · exact absurd rfl (hn [])
  | cons x pre =>
    have hpp : Plain (x :: pre) := fun q hq => hp q (by simp only [List.mem_append]; exact .inl hq)
    rw [deleteAt_last_cl E v x pre p (hpp x (by simp))]
    have hobs := sameObs_resolve E true (x :: pre) v
    rcases resolve_caddr (x :: pre) v (by simp) hpp hg with ⟨l, h1, h2, h3⟩ | ⟨⟨e, h1⟩, pre', q, post, l, a, h2, h3, h4, h5⟩ | ⟨-, m, hm⟩
    · obtain ⟨a, ha'⟩ := resolve_at E true _ v l h1
      have ha : v.at l = some a := by rw [← h3]; exact ha'
      cases hr : resolve E true v (x :: pre) with
      | mk w r =>
        rw [hr] at h1 ha' hobs
        simp only at h1 ha' hobs
        subst h1
        simp only
        rw [modify_eq _ ha', deleteAt1_nonslice _ _ _ _ hps]
        rcases deleteLast_cstep (hg l a ha) p with ⟨s, g1, g2, g3⟩ | ⟨g1, g2, g3⟩ | rfl
        · exact .inl ⟨l, a, s, _, h2, ha, g1, g3, g2, replace_at _ ha', fun m hm => by rw [replace_frame _ ha' m hm]; exact (hobs m).symm⟩
        · exact .inr ⟨g2, sameObs_replace hobs ha g3, x :: pre, p, [], l, a, rfl, h2, ha, g1⟩
        · exact absurd ha (hn l)
    · cases hr : resolve E true v (x :: pre) with
      | mk w r =>
        rw [hr] at h1 hobs
        simp only at h1 hobs
        subst h1
        exact .inr ⟨⟨e, rfl⟩, hobs, pre', q, post ++ [p], l, a, by rw [h2]; simp, h3, h4, h5⟩
    · exact absurd hm (hn m)

theorem run_good {E : Env} {v : V} (hv : IsObj v) (hg : GoodNode E v) (op : ObjOp) : IsObj (op.run E v) ∧ GoodNode E (op.run E v) := by
  have hP := closed_good E
  cases op with
  | set k c =>
    rcases run_set E hv k c with ⟨-, h⟩ | ⟨-, n, kvs, low, rfl, h⟩
    · rw [h]; exact ⟨hv, hg⟩
    · rw [h]; exact ⟨⟨_, _, _, rfl⟩, hP.setKey _ _ _ _ _ hg⟩
  | del k =>
    obtain ⟨n, kvs, low, rfl⟩ := hv
    simp only [ObjOp.run, delete_one, deleteLast_str]
    have := hP.low false n kvs low k hg
    split
    · exact ⟨⟨_, _, _, rfl⟩, hP.del _ _ _ _ this⟩
    · exact ⟨⟨_, _, _, rfl⟩, this⟩
  | cdel k =>
    obtain ⟨n, kvs, low, rfl⟩ := hv
    simp only [ObjOp.run, delete_one, deleteLast_str]
    have := hP.low true n kvs low k hg
    split
    · exact ⟨⟨_, _, _, rfl⟩, hP.del _ _ _ _ this⟩
    · exact ⟨⟨_, _, _, rfl⟩, this⟩
  | get k =>
    obtain ⟨n, kvs, low, rfl⟩ := hv
    simp only [ObjOp.run, getC, resolve_one]
    rw [resolve1_locate _ _ _ _ rfl, locate_str]
    exact ⟨⟨_, _, _, rfl⟩, hP.low false n kvs low k hg⟩
  | cget k =>
    obtain ⟨n, kvs, low, rfl⟩ := hv
    simp only [ObjOp.run, getC, resolve_one]
    rw [resolve1_locate _ _ _ _ rfl, locate_str]
    exact ⟨⟨_, _, _, rfl⟩, hP.low true n kvs low k hg⟩

theorem run_map {E : Env} {v : V} (hv : IsObj v) (hg : GoodNode E v) (op : ObjOp) {ops : List ObjOp} {M : Bytes → Option V}
    (h : MapRun E (members (op.run E v)) ops M) : MapRun E (members v) (op :: ops) M := by
  cases op with
  | set k c =>
    rcases run_set E hv k c with ⟨hc, hr⟩ | ⟨hc, n, kvs, low, rfl, hr⟩
    · rw [hr] at h; exact .setBad _ _ _ _ _ hc h
    · rw [hr, members_setKey] at h; exact .set _ _ _ _ _ hc h
  | del k =>
    obtain ⟨n, kvs, low, rfl⟩ := hv
    simp only [ObjOp.run, delete_one, deleteLast_str, findKey_false] at h
    apply MapRun.del
    cases hl : lookup k kvs with
    | some e =>
      simp only [hl, Option.isSome_some, if_true] at h
      rwa [members_erase (low := low) hg.1] at h
    | none =>
      simp only [hl, Option.isSome_none, Bool.false_eq_true, if_false] at h
      have : (fun x => if x = k then none else members (.obj n kvs low) x) = members (.obj n kvs low) := by
        funext x
        split
        · rename_i hx; subst hx; simp [members, child_key, hl]
        · rfl
      rw [this]; exact h
  | cdel k =>
    obtain ⟨n, kvs, low, rfl⟩ := hv
    simp only [ObjOp.run, delete_one, deleteLast_str] at h
    rcases findKey_picks (n := n) hg.2 k with ⟨k', h1, h2⟩ | ⟨h1, h2⟩
    · rw [h1] at h
      simp only at h
      rw [members_erase (low := low) hg.1] at h
      exact .cdel _ _ k' _ _ h2 h
    · rw [h1] at h
      exact .cdelNone _ _ _ _ h2 h
  | get k =>
    obtain ⟨n, kvs, low, rfl⟩ := hv
    simp only [ObjOp.run, getC, resolve_one] at h
    rw [resolve1_locate _ _ _ _ rfl, locate_str] at h
    exact .get _ _ _ _ h
  | cget k =>
    obtain ⟨n, kvs, low, rfl⟩ := hv
    simp only [ObjOp.run, getC, resolve_one] at h
    rw [resolve1_locate _ _ _ _ rfl, locate_str] at h
    exact .cget _ _ _ _ h

theorem reorder_isObj {v w : V} (h : Reorder v w) : IsObj w := by cases h; exact ⟨_, _, _, rfl⟩

theorem objRun_map {E : Env} {v w : V} {ops : List ObjOp} (h : ObjRun E v ops w) : IsObj v → GoodNode E v →
    MapRun E (members v) ops (members w) ∧ IsObj w ∧ GoodNode E w := by
  induction h with
  | nil v => intro h1 h2; exact ⟨.nil _, h1, h2⟩
  | cons v op ops w _ ih =>
    intro h1 h2
    obtain ⟨a, b⟩ := run_good h1 h2 op
    obtain ⟨c, d⟩ := ih a b
    exact ⟨run_map h1 h2 op c, d⟩
  | reorder v v' ops w hr _ ih =>
    intro h1 h2
    have : members v = members v' := by funext k; exact (reorder_child hr h2 _).symm
    rw [this]
    exact ih (reorder_isObj hr) (reorder_good hr h2)

/-- an operation that does not concern member `k` leaves it alone -/
theorem mapRun_untouched {E : Env} {M M' : Bytes → Option V} {ops : List ObjOp} (h : MapRun E M ops M') (k : Bytes) :
    (∀ op ∈ ops, ¬ op.touches E k) → M' k = M k := by
  induction h with
  | nil => intro _; rfl
  | set M k' c ops M' hc _ ih =>
    intro ht
    rw [ih (fun op ho => ht op (by simp [ho]))]
    have := ht _ (List.mem_cons_self)
    simp only [ObjOp.touches, hc, and_true] at this
    exact if_neg (fun h => this h.symm)
  | setBad M k' c ops M' hc _ ih => intro ht; exact ih (fun op ho => ht op (by simp [ho]))
  | del M k' ops M' _ ih =>
    intro ht
    rw [ih (fun op ho => ht op (by simp [ho]))]
    have := ht _ (List.mem_cons_self)
    simp only [ObjOp.touches] at this
    exact if_neg (fun h => this h.symm)
  | cdel M k0 k' ops M' hp _ ih =>
    intro ht
    rw [ih (fun op ho => ht op (by simp [ho]))]
    have := ht _ (List.mem_cons_self)
    simp only [ObjOp.touches] at this
    refine if_neg ?_
    rintro rfl
    rcases hp.2 with h | ⟨-, h⟩
    · exact this (.inr h)
    · exact this (.inl h)
  | cdelNone M k' ops M' _ _ ih => intro ht; exact ih (fun op ho => ht op (by simp [ho]))
  | get M k' ops M' _ ih => intro ht; exact ih (fun op ho => ht op (by simp [ho]))
  | cget M k' ops M' _ ih => intro ht; exact ih (fun op ho => ht op (by simp [ho]))

theorem mapRun_append {E : Env} {M M' : Bytes → Option V} {pre post : List ObjOp} (h : MapRun E M (pre ++ post) M') :
    ∃ N, MapRun E M pre N ∧ MapRun E N post M' := by
  generalize hops : pre ++ post = ops at h
  induction h generalizing pre with
  | nil M =>
    simp at hops
    obtain ⟨rfl, rfl⟩ := hops
    exact ⟨M, .nil _, .nil _⟩
  | set M k c ops M' hc h ih =>
    match pre, hops with
    | [], hops => exact ⟨M, .nil _, by simp at hops; subst hops; exact .set _ _ _ _ _ hc h⟩
    | x :: pre, hops =>
      simp at hops
      obtain ⟨rfl, h2⟩ := hops
      obtain ⟨N, h3, h4⟩ := ih h2
      exact ⟨N, .set _ _ _ _ _ hc h3, h4⟩
  | setBad M k c ops M' hc h ih =>
    match pre, hops with
    | [], hops => exact ⟨M, .nil _, by simp at hops; subst hops; exact .setBad _ _ _ _ _ hc h⟩
    | x :: pre, hops =>
      simp at hops
      obtain ⟨rfl, h2⟩ := hops
      obtain ⟨N, h3, h4⟩ := ih h2
      exact ⟨N, .setBad _ _ _ _ _ hc h3, h4⟩
  | del M k ops M' h ih =>
    match pre, hops with
    | [], hops => exact ⟨M, .nil _, by simp at hops; subst hops; exact .del _ _ _ _ h⟩
    | x :: pre, hops =>
      simp at hops
      obtain ⟨rfl, h2⟩ := hops
      obtain ⟨N, h3, h4⟩ := ih h2
      exact ⟨N, .del _ _ _ _ h3, h4⟩
  | cdel M k k' ops M' hp h ih =>
    match pre, hops with
    | [], hops => exact ⟨M, .nil _, by simp at hops; subst hops; exact .cdel _ _ _ _ _ hp h⟩
    | x :: pre, hops =>
      simp at hops
      obtain ⟨rfl, h2⟩ := hops
      obtain ⟨N, h3, h4⟩ := ih h2
      exact ⟨N, .cdel _ _ _ _ _ hp h3, h4⟩
  | cdelNone M k ops M' hp h ih =>
    match pre, hops with
    | [], hops => exact ⟨M, .nil _, by simp at hops; subst hops; exact .cdelNone _ _ _ _ hp h⟩
    | x :: pre, hops =>
      simp at hops
      obtain ⟨rfl, h2⟩ := hops
      obtain ⟨N, h3, h4⟩ := ih h2
      exact ⟨N, .cdelNone _ _ _ _ hp h3, h4⟩
  | get M k ops M' h ih =>
    match pre, hops with
    | [], hops => exact ⟨M, .nil _, by simp at hops; subst hops; exact .get _ _ _ _ h⟩
    | x :: pre, hops =>
      simp at hops
      obtain ⟨rfl, h2⟩ := hops
      obtain ⟨N, h3, h4⟩ := ih h2
      exact ⟨N, .get _ _ _ _ h3, h4⟩
  | cget M k ops M' h ih =>
    match pre, hops with
    | [], hops => exact ⟨M, .nil _, by simp at hops; subst hops; exact .cget _ _ _ _ h⟩
    | x :: pre, hops =>
      simp at hops
      obtain ⟨rfl, h2⟩ := hops
      obtain ⟨N, h3, h4⟩ := ih h2
      exact ⟨N, .cget _ _ _ _ h3, h4⟩

theorem get_members (E : Env) {v : V} (hv : IsObj v) (k : Bytes) :
    get E v [.str k] = match members v k with | some c => .ok c | none => .err .notFound := by
  obtain ⟨n, kvs, low, rfl⟩ := hv
  rw [get_key]
  simp only [members, child_key]
  cases lookup k kvs <;> rfl

/-! ## arrays -/

theorem insertIdx_eq {xs : List V} {c : V} {i : Nat} (h : i ≤ xs.length) : xs.insertIdx i c = xs.take i ++ c :: xs.drop i := by
  induction i generalizing xs with
  | zero => simp
  | succ i ih =>
    match xs, h with
    | x :: xs, h => simp; exact ih (by simpa using h)

theorem run_arr (E : Env) (xs : List V) (op : ArrOp) : op.run E (.arr xs) = .arr (op.list xs) := by
  cases op with
  | set z c =>
    simp only [ArrOp.run, set, setAt_one, ArrOp.list]
    rw [setAt1_plain _ _ _ _ rfl]
    cases hc : c.uninit with
    | true => simp
    | false =>
      simp only [V.uninit, Bool.or_self, Bool.false_eq_true, if_false, atLastParam, anyToInt, setAtIndex_eq]
      split
      · rename_i h
        split at h
        · cases h; rename_i h1; simp [h1]
        · split at h
          · cases h; rename_i hi; simp [hi]; omega
          · cases h
      · rename_i h
        split at h
        · cases h
        · split at h
          · cases h
          · rename_i hi; simp [hi]; omega
      · rename_i h1 h2
        exfalso
        revert h1 h2
        split
        · intro h1 h2; exact h1 _ _ rfl
        · split
          · intro h1 h2; exact h1 _ _ rfl
          · intro h1 h2; exact h2 _ rfl
  | insert after z c =>
    simp only [ArrOp.run, insert, insertAt_one, ArrOp.list]
    rw [show insertAt1 E after (.arr xs) c (.int z) = insertLast after (.arr xs) c (.int z) from rfl, insertLast_arr]
    simp only [intOf]
    cases hi : index xs.length z.toInt with
    | none => rfl
    | some i =>
      have := index_lt hi
      simp only
      rw [insertIdx_eq (by split <;> omega)]
  | append beg c =>
    simp only [ArrOp.run, append, appendAt, ArrOp.list]
    rw [appendTo_arr]
    cases beg <;> rfl
  | del z =>
    simp only [ArrOp.run, delete, deleteAt_one, ArrOp.list]
    rw [show deleteAt1 E false (.arr xs) (.int z) = deleteLast E false (.arr xs) (.int z) from rfl, deleteLast_arr]
    simp only [intOf]
    cases hi : index xs.length z.toInt <;> rfl
  | get z => exact resolve_plain E [.int z] (.arr xs)

end JV
