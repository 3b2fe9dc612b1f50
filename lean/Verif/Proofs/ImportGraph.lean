import Verif.Spec.ImportGraph
import Verif.Proofs.ImportTotal
/-! Import on data in memory, and on the tree they unfold to. -/
namespace JV
open Spec

variable {E : Env} {S : SortFn} {F : FloatText} {h : GHeap}

theorem splitComma_head : ∀ t : Bytes, (splitComma t).headD [] = t.takeWhile (· ≠ 0x2C)
  | [] => rfl
  | c :: t => by
    have ih := splitComma_head t
    unfold splitComma
    by_cases hc : c = 0x2C
    · simp [hc]
    · rw [if_neg hc, List.takeWhile_cons_of_pos (by simp [hc])]
      cases hs : splitComma t with
      | nil => rw [hs, List.headD_nil] at ih; rw [← ih]; rfl
      | cons p ps => rw [hs] at ih; simp only [List.headD_cons] at ih; simp [ih]

theorem fieldTag_name (name tag : Bytes) (pex : Ext) : (readFieldTag E name tag pex).1 = jsonName E name tag := by
  unfold readFieldTag jsonName
  by_cases h : tag = []
  · simp [h]
  · rw [if_neg h]
    simp only [splitComma_head, h, false_or]

theorem anonTag_name (name tag : Bytes) (pex : Ext) : (readAnonymousFieldTag E name tag pex).1 = jsonName E name tag := fieldTag_name name tag pex

/-! ### the tree -/

theorem listG_eq {rec : Nat → R V} {g : Nat → GoVal} {ex : Ext} {ro : RO} : ∀ (xs : List Nat) (res : V), (∀ b ∈ xs, rec b = importVal E S F ex ro (g b)) →
    listG E rec res xs = importList E S F ex ro res (xs.map g)
  | [], res, _ => by simp [listG, importList]
  | b :: xs, res, hx => by
    rw [List.map_cons, listG, importList, hx b (by simp)]
    cases importVal E S F ex ro (g b) with
    | ok c =>
      simp only [R.bind_ok]
      cases mustAppend E res c with
      | ok res => simp only [R.bind_ok]; exact listG_eq xs res fun b hb => hx b (by simp [hb])
      | _ => rfl
    | _ => rfl

theorem pairsG_eq {rec : Nat → R V} {g : Nat → GoVal} {ex : Ext} {ro : RO} : ∀ (ps : List (GoKey × Nat)) (res : V), (∀ p ∈ ps, rec p.2 = importVal E S F ex ro (g p.2)) →
    pairsG E rec res ps = importPairs E S F ex ro res (ps.map fun p => ⟨p.1, g p.2⟩)
  | [], res, _ => by simp [pairsG, importPairs]
  | (k, b) :: xs, res, hx => by
    rw [List.map_cons, pairsG, importPairs, importPair, hx (k, b) (by simp)]
    cases importVal E S F ex ro (g b) with
    | ok c =>
      simp only [R.bind_ok, R.pure_eq]
      cases mustSetKey E res c k.text with
      | ok res => simp only [R.bind_ok]; exact pairsG_eq xs res fun b hb => hx b (by simp [hb])
      | _ => rfl
    | _ => rfl

theorem fieldG_eq {rec : Ext → RO → Nat → R V} {g : RO → Nat → GoVal} {pex : Ext} {ro : RO} (f : GField)
    (hf : Looked E ro f → ∀ ex, rec ex (ro.field f.anon f.exported) f.a = importVal E S F ex (ro.field f.anon f.exported) (g (ro.field f.anon f.exported) f.a))
    (hn : Looked E ro f → isNilPtr (g (ro.field f.anon f.exported) f.a) = nilNode (h f.a)) :
    fieldG E S h rec pex ro f =
      importField E S F pex ro ⟨f.name, f.tag, f.anon, f.exported, if Looked E ro f then g (ro.field f.anon f.exported) f.a else .invalid⟩ := by
  obtain ⟨name, tag, anon, exported, a⟩ := f
  unfold fieldG
  cases anon with
  | true =>
    simp only [if_true, importField, anonTag_name]
    by_cases hj : jsonName E name tag = [0x2D]
    · rw [if_pos hj, if_pos hj]
    · have hl : Looked E ro ⟨name, tag, true, exported, a⟩ := ⟨hj, .inl rfl⟩
      rw [if_neg hj, if_neg hj, if_pos hl, hn hl]
      split
      · rfl
      · rw [hf hl]
  | false =>
    simp only [Bool.false_eq_true, if_false, importField, fieldTag_name]
    by_cases hr : ro.field false exported = .no
    · have hr' : ¬ ro.field false exported ≠ .no := fun h => h hr
      simp only [if_neg hr']
      by_cases hj : jsonName E name tag = [0x2D]
      · simp only [if_pos hj]
      · have hl : Looked E ro ⟨name, tag, false, exported, a⟩ := ⟨hj, .inr hr⟩
        have := hf hl
        simp only [hr] at this
        simp only [if_neg hj, if_pos hl, hr, this]
    · have hr' : ro.field false exported ≠ .no := hr
      simp only [if_pos hr']

theorem fieldsG_eq {rec : Ext → RO → Nat → R V} {g : RO → Nat → GoVal} {ex : Ext} {ro : RO} : ∀ (fs : List GField) (res : V),
    (∀ f ∈ fs, Looked E ro f → ∀ ex, rec ex (ro.field f.anon f.exported) f.a = importVal E S F ex (ro.field f.anon f.exported) (g (ro.field f.anon f.exported) f.a)) →
    (∀ f ∈ fs, Looked E ro f → isNilPtr (g (ro.field f.anon f.exported) f.a) = nilNode (h f.a)) →
    fieldsG E S h rec ex ro res fs =
      importFields E S F ex ro res (fs.map fun f => ⟨f.name, f.tag, f.anon, f.exported, if Looked E ro f then g (ro.field f.anon f.exported) f.a else .invalid⟩)
  | [], res, _, _ => by simp [fieldsG, importFields]
  | f :: fs, res, hx, hn => by
    rw [List.map_cons, fieldsG, importFields, fieldG_eq f (hx f (by simp)) (hn f (by simp))]
    cases importField E S F ex ro _ with
    | ok l =>
      simp only [R.bind_ok]
      cases mustSetAll E res l with
      | ok res => simp only [R.bind_ok]; exact fieldsG_eq fs res (fun b hb => hx b (by simp [hb])) fun b hb => hn b (by simp [hb])
      | _ => rfl
    | _ => rfl

/-- at depth `n` all is seen -/
structure Seen (E : Env) (S : SortFn) (F : FloatText) (h : GHeap) (s : RO × Nat) (n : Nat) : Prop where
  same : ∀ m, n ≤ m → unfoldG E h m s.1 s.2 = unfoldG E h n s.1 s.2
  runs : ∀ m, n ≤ m → ∀ ex, importG E S F h m ex s.1 s.2 = importVal E S F ex s.1 (unfoldG E h m s.1 s.2)
  nils : ∀ m, n ≤ m → isNilPtr (unfoldG E h m s.1 s.2) = nilNode (h s.2)

theorem Seen.mono {s : RO × Nat} {n m : Nat} (hs : Seen E S F h s n) (hm : n ≤ m) : Seen E S F h s m :=
  ⟨fun k hk => (hs.same k (Nat.le_trans hm hk)).trans (hs.same m hm).symm, fun k hk => hs.runs k (Nat.le_trans hm hk), fun k hk => hs.nils k (Nat.le_trans hm hk)⟩

theorem seen_all {α : Type} {g : α → RO × Nat} : ∀ (xs : List α), (∀ x ∈ xs, ∃ n, Seen E S F h (g x) n) → ∃ n, ∀ x ∈ xs, Seen E S F h (g x) n
  | [], _ => ⟨0, by simp⟩
  | x :: xs, hx => by
    obtain ⟨n, hn⟩ := hx x (by simp)
    obtain ⟨m, hm⟩ := seen_all xs fun y hy => hx y (by simp [hy])
    refine ⟨max n m, fun y hy => ?_⟩
    rcases List.mem_cons.1 hy with rfl | hy
    · exact hn.mono (Nat.le_max_left _ _)
    · exact (hm y hy).mono (Nat.le_max_right _ _)

theorem succ_of {n m : Nat} (h : n + 1 ≤ m) : ∃ k, m = k + 1 ∧ n ≤ k := ⟨m - 1, by omega, by omega⟩

/-- what is followed to its end is seen at some depth -/
theorem seen_of_acc {s : RO × Nat} (ha : Acc (fun y x => Follows E h x y) s) : ∃ n, Seen E S F h s n := by
  induction ha with
  | intro s _ ih =>
    obtain ⟨ro, a⟩ := s
    cases hn : h a with
    | leaf x =>
      refine ⟨1, fun m hm => ?_, fun m hm ex => ?_, fun m hm => ?_⟩ <;> obtain ⟨k, rfl, -⟩ := succ_of (n := 0) hm
      · simp only [unfoldG, hn]
      · simp only [importG, unfoldG, hn]
      · simp only [unfoldG, nilNode, hn]
    | arr xs =>
      obtain ⟨n, hs⟩ := seen_all (g := fun b => (ro.elem, b)) xs fun b hb => ih _ (.arr hn hb)
      refine ⟨n + 1, fun m hm => ?_, fun m hm ex => ?_, fun m hm => ?_⟩ <;> obtain ⟨k, rfl, hk⟩ := succ_of hm
      · simp only [unfoldG, hn]
        exact congrArg _ (List.map_congr_left fun b hb => (hs b hb).same k hk)
      · simp only [importG, unfoldG, hn, importVal]
        exact listG_eq xs _ fun b hb => (hs b hb).runs k hk _
      · simp only [unfoldG, nilNode, hn, isNilPtr]
    | slice xs =>
      obtain ⟨n, hs⟩ := seen_all (g := fun b => (ro.elem, b)) xs fun b hb => ih _ (.slice hn hb)
      refine ⟨n + 1, fun m hm => ?_, fun m hm ex => ?_, fun m hm => ?_⟩ <;> obtain ⟨k, rfl, hk⟩ := succ_of hm
      · simp only [unfoldG, hn]
        exact congrArg _ (List.map_congr_left fun b hb => (hs b hb).same k hk)
      · simp only [importG, unfoldG, hn, importVal, List.isEmpty_map]
        split
        · rfl
        · exact listG_eq xs _ fun b hb => (hs b hb).runs k hk _
      · simp only [unfoldG, nilNode, hn, isNilPtr]
    | map kvs =>
      obtain ⟨n, hs⟩ := seen_all (g := fun p : GoKey × Nat => (ro.elem, p.2)) kvs fun b hb => ih _ (.map hn hb)
      refine ⟨n + 1, fun m hm => ?_, fun m hm ex => ?_, fun m hm => ?_⟩ <;> obtain ⟨k, rfl, hk⟩ := succ_of hm
      · simp only [unfoldG, hn]
        exact congrArg _ (List.map_congr_left fun b hb => by rw [(hs b hb).same k hk])
      · simp only [importG, unfoldG, hn, importVal, List.isEmpty_map]
        split
        · rfl
        · exact pairsG_eq kvs _ fun b hb => (hs b hb).runs k hk _
      · simp only [unfoldG, nilNode, hn, isNilPtr]
    | ptr b =>
      obtain ⟨n, hs⟩ := ih (ro, b) (.ptr hn)
      refine ⟨n + 1, fun m hm => ?_, fun m hm ex => ?_, fun m hm => ?_⟩ <;> obtain ⟨k, rfl, hk⟩ := succ_of hm
      · simp only [unfoldG, hn]
        exact congrArg _ (hs.same k hk)
      · simp only [importG, unfoldG, hn, importVal]
        exact hs.runs k hk ex
      · simp only [unfoldG, nilNode, hn, isNilPtr]
    | iface b =>
      obtain ⟨n, hs⟩ := ih (ro.elem, b) (.iface hn)
      refine ⟨n + 1, fun m hm => ?_, fun m hm ex => ?_, fun m hm => ?_⟩ <;> obtain ⟨k, rfl, hk⟩ := succ_of hm
      · simp only [unfoldG, hn]
        exact congrArg _ (hs.same k hk)
      · simp only [importG, unfoldG, hn, importVal]
        exact hs.runs k hk ex
      · simp only [unfoldG, nilNode, hn, isNilPtr]
    | struct fs =>
      obtain ⟨n, hs⟩ := seen_all (g := fun f : GField => (ro.field f.anon f.exported, f.a)) (fs.filter fun f => decide (Looked E ro f)) fun f hf => by
        obtain ⟨h1, h2⟩ := List.mem_filter.1 hf
        exact ih _ (.field hn h1 (of_decide_eq_true h2))
      have hs' : ∀ f ∈ fs, Looked E ro f → Seen E S F h (ro.field f.anon f.exported, f.a) n := fun f hf hl => hs f (List.mem_filter.2 ⟨hf, decide_eq_true hl⟩)
      refine ⟨n + 1, fun m hm => ?_, fun m hm ex => ?_, fun m hm => ?_⟩ <;> obtain ⟨k, rfl, hk⟩ := succ_of hm
      · simp only [unfoldG, hn]
        refine congrArg _ (List.map_congr_left fun f hf => ?_)
        by_cases hl : Looked E ro f
        · rw [if_pos hl, if_pos hl, (hs' f hf hl).same k hk]
        · rw [if_neg hl, if_neg hl]
      · simp only [importG, unfoldG, hn, importVal]
        exact fieldsG_eq fs _ (fun f hf hl ex => (hs' f hf hl).runs k hk ex) fun f hf hl => (hs' f hf hl).nils k hk
      · simp only [unfoldG, nilNode, hn, isNilPtr]

/-! ### a value is only returned if all was looked at -/

theorem listG_ok {rec : Nat → R V} : ∀ {xs : List Nat} {res v : V}, listG E rec res xs = .ok v → ∀ b ∈ xs, ∃ c, rec b = .ok c
  | [], _, _, _, b, hb => by cases hb
  | x :: xs, res, v, hv, b, hb => by
    rw [listG] at hv
    cases hx : rec x with
    | ok c =>
      rw [hx] at hv
      simp only [R.bind_ok] at hv
      cases ha : mustAppend E res c with
      | ok res' =>
        rw [ha] at hv
        simp only [R.bind_ok] at hv
        rcases List.mem_cons.1 hb with rfl | hb
        · exact ⟨c, hx⟩
        · exact listG_ok hv b hb
      | _ => rw [ha] at hv; cases hv
    | _ => rw [hx] at hv; cases hv

theorem pairsG_ok {rec : Nat → R V} : ∀ {xs : List (GoKey × Nat)} {res v : V}, pairsG E rec res xs = .ok v → ∀ p ∈ xs, ∃ c, rec p.2 = .ok c
  | [], _, _, _, b, hb => by cases hb
  | (k, x) :: xs, res, v, hv, b, hb => by
    rw [pairsG] at hv
    cases hx : rec x with
    | ok c =>
      rw [hx] at hv
      simp only [R.bind_ok] at hv
      cases ha : mustSetKey E res c k.text with
      | ok res' =>
        rw [ha] at hv
        simp only [R.bind_ok] at hv
        rcases List.mem_cons.1 hb with rfl | hb
        · exact ⟨c, hx⟩
        · exact pairsG_ok hv b hb
      | _ => rw [ha] at hv; cases hv
    | _ => rw [hx] at hv; cases hv

theorem fieldG_ok {rec : Ext → RO → Nat → R V} {ex : Ext} {ro : RO} {f : GField} {l : List (Bytes × V)} (hv : fieldG E S h rec ex ro f = .ok l) (hl : Looked E ro f) :
    nilNode (h f.a) = true ∨ ∃ ex c, rec ex (ro.field f.anon f.exported) f.a = .ok c := by
  obtain ⟨name, tag, anon, exported, a⟩ := f
  unfold fieldG at hv
  cases anon with
  | true =>
    simp only [if_true, anonTag_name] at hv
    rw [if_neg hl.1] at hv
    cases hn : nilNode (h a) with
    | true => exact .inl rfl
    | false =>
      rw [hn] at hv
      simp only [Bool.false_eq_true, if_false] at hv
      cases hx : rec (readAnonymousFieldTag E name tag ex).2 (ro.field true exported) a with
      | ok c => exact .inr ⟨_, c, hx⟩
      | _ => rw [hx] at hv; cases hv
  | false =>
    have hr : ro.field false exported = .no := by
      rcases hl.2 with h1 | h1
      · cases h1
      · exact h1
    simp only [Bool.false_eq_true, if_false, fieldTag_name] at hv
    rw [if_neg (by simpa using hr), if_neg hl.1] at hv
    cases hx : rec (readFieldTag E name tag ex).2 .no a with
    | ok c =>
      refine .inr ⟨(readFieldTag E name tag ex).2, c, ?_⟩
      show rec _ (ro.field false exported) a = _
      rw [hr]
      exact hx
    | _ => rw [hx] at hv; cases hv

theorem fieldsG_ok {rec : Ext → RO → Nat → R V} {ex : Ext} {ro : RO} : ∀ {fs : List GField} {res v : V}, fieldsG E S h rec ex ro res fs = .ok v → ∀ f ∈ fs, Looked E ro f →
    nilNode (h f.a) = true ∨ ∃ ex c, rec ex (ro.field f.anon f.exported) f.a = .ok c
  | [], _, _, _, b, hb => by cases hb
  | x :: xs, res, v, hv, b, hb => by
    intro hl
    rw [fieldsG] at hv
    cases hx : fieldG E S h rec ex ro x with
    | ok c =>
      rw [hx] at hv
      simp only [R.bind_ok] at hv
      cases ha : mustSetAll E res c with
      | ok res' =>
        rw [ha] at hv
        simp only [R.bind_ok] at hv
        rcases List.mem_cons.1 hb with rfl | hb
        · exact fieldG_ok hx hl
        · exact fieldsG_ok hv b hb hl
      | _ => rw [ha] at hv; cases hv
    | _ => rw [hx] at hv; cases hv

theorem acc_leaf {ro : RO} {a : Nat} {x : GoVal} (hn : h a = .leaf x) : Acc (fun y x => Follows E h x y) (ro, a) :=
  ⟨_, fun y hy => by cases hy <;> simp_all⟩

theorem acc_of_ok : ∀ {n : Nat} {ex : Ext} {ro : RO} {a : Nat} {v : V}, importG E S F h n ex ro a = .ok v → Acc (fun y x => Follows E h x y) (ro, a)
  | 0, _, _, _, _, hv => by cases hv
  | n + 1, ex, ro, a, v, hv => by
    unfold importG at hv
    refine ⟨_, fun y hy => ?_⟩
    cases hy with
    | arr hn hb =>
      rw [hn] at hv
      obtain ⟨c, hc⟩ := listG_ok hv _ hb
      exact acc_of_ok hc
    | slice hn hb =>
      rw [hn] at hv
      simp only at hv
      split at hv
      · rename_i he; rw [List.isEmpty_iff.1 he] at hb; cases hb
      · obtain ⟨c, hc⟩ := listG_ok hv _ hb
        exact acc_of_ok hc
    | map hn hb =>
      rw [hn] at hv
      simp only at hv
      split at hv
      · rename_i he; rw [List.isEmpty_iff.1 he] at hb; cases hb
      · obtain ⟨c, hc⟩ := pairsG_ok hv _ hb
        exact acc_of_ok hc
    | ptr hn => rw [hn] at hv; exact acc_of_ok hv
    | iface hn => rw [hn] at hv; exact acc_of_ok hv
    | field hn hf hl =>
      rw [hn] at hv
      rcases fieldsG_ok hv _ hf hl with h1 | ⟨ex, c, hc⟩
      · unfold nilNode at h1
        split at h1
        · rename_i x hx; exact acc_leaf hx
        · cases h1
      · exact acc_of_ok hc

/-! ### endless -/

theorem acc_not_endless {α : Type} {r : α → α → Prop} {s : α} (ha : Acc (fun y x => r x y) s) : ∀ f : Nat → α, f 0 = s → ¬ ∀ i, r (f i) (f (i + 1)) := by
  induction ha with
  | intro s _ ih =>
    intro f h0 hf
    exact ih (f 1) (h0 ▸ hf 0) (fun i => f (i + 1)) rfl fun i => hf (i + 1)

theorem endless_of_not_acc {α : Type} {r : α → α → Prop} {s : α} (ha : ¬ Acc (fun y x => r x y) s) : ∃ f : Nat → α, f 0 = s ∧ ∀ i, r (f i) (f (i + 1)) := by
  have step : ∀ x : { x // ¬ Acc (fun y x => r x y) x }, ∃ y : { x // ¬ Acc (fun y x => r x y) x }, r x.1 y.1 := by
    rintro ⟨x, hx⟩
    refine Classical.byContradiction fun hc => hx ⟨_, fun y hy => Classical.byContradiction fun hn => hc ⟨⟨y, hn⟩, hy⟩⟩
  let f : Nat → { x // ¬ Acc (fun y x => r x y) x } := fun n => Nat.rec ⟨s, ha⟩ (fun _ x => Classical.choose (step x)) n
  exact ⟨fun n => (f n).1, rfl, fun i => Classical.choose_spec (step (f i))⟩

theorem acc_iff {a : Nat} : Acc (fun y x => Follows E h x y) (.no, a) ↔ ¬ Endless E h a :=
  ⟨fun ha ⟨f, h0, hf⟩ => acc_not_endless ha f h0 hf, fun hn => Classical.byContradiction fun hc => hn (endless_of_not_acc hc)⟩

theorem repeats {α : Type} : ∀ (l : List α) (f : Nat → α), (∀ i, f i ∈ l) → ∃ i j, i < j ∧ f i = f j
  | [], f, hf => by cases hf 0
  | x :: l, f, hf => by
    rcases Classical.em (∃ i, ∀ j, i ≤ j → f j ≠ x) with ⟨i, hi⟩ | hc
    · obtain ⟨j, k, h1, h2⟩ := repeats l (fun n => f (i + n)) fun n => (List.mem_cons.1 (hf (i + n))).resolve_left (hi _ (by omega))
      exact ⟨i + j, i + k, by omega, h2⟩
    · have : ∀ i, ∃ j, i ≤ j ∧ f j = x := fun i => Classical.byContradiction fun hn => hc ⟨i, fun j hj hx => hn ⟨j, hj, hx⟩⟩
      obtain ⟨j, -, hj⟩ := this 0
      obtain ⟨k, hk, hk'⟩ := this (j + 1)
      exact ⟨j, k, by omega, hj.trans hk'.symm⟩

theorem path_of_seq {f : Nat → RO × Nat} (hf : ∀ i, Follows E h (f i) (f (i + 1))) (i : Nat) : ∀ k, Trail E h (f i) (f (i + k)) k
  | 0 => .here
  | k + 1 => .step (path_of_seq hf i k) (hf (i + k))

theorem trail_head {s u : RO × Nat} : ∀ {n : Nat}, Trail E h s u (n + 1) → ∃ t, Follows E h s t ∧ Trail E h t u n
  | 0, .step .here hs => ⟨u, hs, .here⟩
  | n + 1, .step hp hs => by
    obtain ⟨t, h1, h2⟩ := trail_head hp
    exact ⟨t, h1, .step h2 hs⟩

theorem no_loop {s : RO × Nat} (ha : Acc (fun y x => Follows E h x y) s) : ∀ k, ¬ Trail E h s s (k + 1) := by
  induction ha with
  | intro s _ ih =>
    intro k hp
    obtain ⟨t, h1, h2⟩ := trail_head hp
    exact ih t h1 k (.step h2 h1)

theorem endless_of_loop {a : Nat} {s : RO × Nat} {m k : Nat} (h1 : Trail E h (.no, a) s m) (h2 : Trail E h s s (k + 1)) : Endless E h a := by
  refine Classical.byContradiction fun hc => ?_
  have hacc := acc_iff.2 hc
  have down : ∀ {x y : RO × Nat} {n : Nat}, Trail E h x y n → Acc (fun y x => Follows E h x y) x → Acc (fun y x => Follows E h x y) y := by
    intro x y n hp
    induction hp with
    | here => exact id
    | step _ hs ih => exact fun hx => (ih hx).inv hs
  have hs := down h1 hacc
  exact no_loop (down h1 hacc) k h2

theorem endless_iff_loop {a N : Nat} (hN : ∀ s n, Trail E h (.no, a) s n → s.2 < N) : Endless E h a ↔ ∃ s m k, Trail E h (.no, a) s m ∧ Trail E h s s (k + 1) := by
  refine ⟨fun ⟨f, h0, hf⟩ => ?_, fun ⟨s, m, k, h1, h2⟩ => endless_of_loop h1 h2⟩
  have hp : ∀ i, Trail E h (.no, a) (f i) i := fun i => by
    have := path_of_seq hf 0 i
    rwa [h0, Nat.zero_add] at this
  obtain ⟨i, j, hij, he⟩ := repeats ([RO.no, .sticky, .embed].flatMap fun r => (List.range N).map fun n => (r, n)) f fun i => by
    have := hN _ _ (hp i)
    generalize f i = s at this
    obtain ⟨r, n⟩ := s
    cases r <;> simp_all
  refine ⟨f i, i, j - i - 1, hp i, ?_⟩
  have := path_of_seq hf i (j - i)
  rw [show i + (j - i) = j by omega, ← he] at this
  rwa [show j - i - 1 + 1 = j - i by omega]

/-! ### when nothing fails -/

/-- a value, or no return -/
def OkOrNot {α : Type} (r : R α) : Prop := (∃ a, r = .ok a) ∨ r = .diverge

theorem okOrNot_bind {α β : Type} {r : R α} {f : α → R β} (hr : OkOrNot r) (hf : ∀ a, r = .ok a → OkOrNot (f a)) : OkOrNot (r >>= f) := by
  rcases hr with ⟨a, rfl⟩ | rfl
  · exact hf a rfl
  · exact .inr rfl

def AnObj (v : V) : Prop := ∃ n kvs low, v = .obj n kvs low

theorem mustSetKey_obj {v : V} (hv : AnObj v) (c : V) (k : Bytes) : ∃ w, mustSetKey E v c k = .ok w ∧ AnObj w := by
  obtain ⟨n, kvs, low, rfl⟩ := hv
  cases hu : c.uninit with
  | true => exact ⟨_, by simp [mustSetKey, set, setAt, setAt1, hu], n, kvs, low, rfl⟩
  | false =>
    have hu' : (V.obj n kvs low).uninit = false := rfl
    exact ⟨.obj (n + 1#32) (assign (Ent.mk k (n + 1#32) c) kvs) (addCaseless E low k),
      by simp [mustSetKey, set, setAt, setAt1, hu', hu, atLastParam, anyToString, setKey], _, _, _, rfl⟩

theorem mustSetAll_obj : ∀ {l : List (Bytes × V)} {v : V}, AnObj v → ∃ w, mustSetAll E v l = .ok w ∧ AnObj w
  | [], v, hv => ⟨v, rfl, hv⟩
  | (k, c) :: l, v, hv => by
    obtain ⟨w, h1, h2⟩ := mustSetKey_obj (E := E) hv c k
    rw [mustSetAll, h1]
    exact mustSetAll_obj h2

theorem anonMembers_ok (name : Bytes) (ex : Ext) (c : V) : ∃ l, anonMembers S name ex c = .ok l := by
  cases c with
  | nilp => exact ⟨_, rfl⟩
  | notExist => exact ⟨_, rfl⟩
  | obj n kvs low => exact ⟨_, by simp [anonMembers, membersBySet, rangeObjectsBySet, isObject, onV]; rfl⟩
  | _ => simp only [anonMembers]; split <;> exact ⟨_, rfl⟩

/-- it returns, with a value, an error or a panic -/
def Finishes {α : Type} (r : R α) : Prop := r ≠ .diverge

theorem ends_bind {α β : Type} {r : R α} {f : α → R β} (hr : Finishes r) (hf : ∀ a, Finishes (f a)) : Finishes (r >>= f) := by
  cases r with
  | ok a => exact hf a
  | err e => exact fun h => nomatch h
  | panic => exact fun h => nomatch h
  | diverge => exact absurd rfl hr

theorem ends_ok {α : Type} (a : α) : Finishes (R.ok a) := fun h => nomatch h

theorem ends_marshaler (ex : Ext) (out : Option Bytes) : Finishes (parseJSONMarshaler E ex out) := by
  unfold parseJSONMarshaler
  split
  · exact fun h => nomatch h
  · rename_i b
    rcases goUnmarshal_cases E b with ⟨v, -, h2⟩ | ⟨e, -, h2⟩ <;> rw [h2] <;> exact fun h => nomatch h

mutual
theorem ends_val (ex : Ext) (ro : RO) : ∀ x : GoVal, Finishes (importVal E S F ex ro x)
  | .arr xs => by rw [importVal]; exact ends_list _ _ xs []
  | .slice xs => by
    rw [importVal]
    split
    · exact ends_ok _
    · exact ends_list _ _ xs []
  | .map kvs => by
    rw [importVal]
    split
    · exact ends_ok _
    · exact ends_pairs _ _ kvs _ ⟨_, _, _, rfl⟩
  | .ptr x => by rw [importVal]; exact ends_val _ _ x
  | .iface x => by rw [importVal]; exact ends_val _ _ x
  | .struct fs => by rw [importVal]; exact ends_fields _ _ fs _ ⟨_, _, _, rfl⟩
  | .marsh _ out => by
    rw [importVal]
    split
    · exact ends_marshaler _ _
    · exact fun h => nomatch h
  | .text _ out => by
    unfold importVal
    split
    · cases out <;> exact fun h => nomatch h
    · exact fun h => nomatch h
  | .bytes true _ => by rw [importVal]; split <;> exact fun h => nomatch h
  | .bytes false _ => by rw [importVal]; split <;> exact fun h => nomatch h
  | .jv _ => by rw [importVal]; split <;> exact fun h => nomatch h
  | .nilMarsh => by rw [importVal]; split <;> exact fun h => nomatch h
  | .invalid | .bool _ | .int _ | .uint _ | .flt _ _ | .str _ | .nilSlice | .nilMap | .badMap | .nilPtr _ | .unsupported => by rw [importVal]; exact fun h => nomatch h
termination_by structural x => x
theorem ends_list (ex : Ext) (ro : RO) : ∀ (xs : List GoVal) (ys : List V), Finishes (importList E S F ex ro (.arr ys) xs)
  | [], ys => by rw [importList]; exact ends_ok _
  | x :: xs, ys => by
    rw [importList]
    have := ends_val ex ro x
    split
    · rw [mustAppend_arr]; exact ends_list ex ro xs _
    · exact fun h => nomatch h
    · exact fun h => nomatch h
    · contradiction
termination_by structural xs => xs
theorem ends_pairs (ex : Ext) (ro : RO) : ∀ (ps : List GoPair) (v : V), AnObj v → Finishes (importPairs E S F ex ro v ps)
  | [], v, _ => by rw [importPairs]; exact ends_ok _
  | p :: ps, v, hv => by
    rw [importPairs]
    have := ends_pair ex ro p
    split
    · rename_i k c _
      obtain ⟨w, hw, hw'⟩ := mustSetKey_obj (E := E) hv c k
      rw [hw]; exact ends_pairs ex ro ps w hw'
    · exact fun h => nomatch h
    · exact fun h => nomatch h
    · contradiction
termination_by structural ps => ps
theorem ends_pair (ex : Ext) (ro : RO) : ∀ p : GoPair, Finishes (importPair E S F ex ro p)
  | .mk k x => by rw [importPair]; exact ends_bind (ends_val ex ro x) fun _ => ends_ok _
termination_by structural p => p
theorem ends_fields (ex : Ext) (ro : RO) : ∀ (ps : List GoField) (v : V), AnObj v → Finishes (importFields E S F ex ro v ps)
  | [], v, _ => by rw [importFields]; exact ends_ok _
  | p :: ps, v, hv => by
    rw [importFields]
    have := ends_field ex ro p
    split
    · rename_i l _
      obtain ⟨w, hw, hw'⟩ := mustSetAll_obj (E := E) (l := l) hv
      rw [hw]; exact ends_fields ex ro ps w hw'
    · exact fun h => nomatch h
    · exact fun h => nomatch h
    · contradiction
termination_by structural ps => ps
theorem ends_field (ex : Ext) (ro : RO) : ∀ p : GoField, Finishes (importField E S F ex ro p)
  | .mk name tag anon exported x => by
    have hx := fun ex ro => ends_val ex ro x
    cases anon with
    | true =>
      simp only [importField]
      split
      · exact ends_ok _
      · split
        · split <;> exact ends_ok _
        · refine ends_bind (hx _ _) fun c => ?_
          obtain ⟨l, hl⟩ := anonMembers_ok (S := S) (readAnonymousFieldTag E name tag ex).1 (readAnonymousFieldTag E name tag ex).2 c
          rw [hl]
          exact ends_ok _
    | false =>
      simp only [importField]
      split
      · exact ends_ok _
      · split
        · exact ends_ok _
        · exact ends_bind (hx _ _) fun c => ends_ok _
termination_by structural p => p
end

theorem listG_okOrNot {rec : Nat → R V} (hr : ∀ b, OkOrNot (rec b)) : ∀ (xs : List Nat) (ys : List V), OkOrNot (listG E rec (.arr ys) xs)
  | [], ys => .inl ⟨_, rfl⟩
  | b :: xs, ys => by
    rw [listG]
    refine okOrNot_bind (hr b) fun c _ => ?_
    rw [mustAppend_arr]
    exact listG_okOrNot hr xs _

theorem pairsG_okOrNot {rec : Nat → R V} (hr : ∀ b, OkOrNot (rec b)) : ∀ (xs : List (GoKey × Nat)) (v : V), AnObj v → OkOrNot (pairsG E rec v xs)
  | [], ys, _ => .inl ⟨_, rfl⟩
  | (k, b) :: xs, v, hv => by
    rw [pairsG]
    refine okOrNot_bind (hr b) fun c _ => ?_
    obtain ⟨w, hw, hw'⟩ := mustSetKey_obj (E := E) hv c k.text
    rw [hw]
    exact pairsG_okOrNot hr xs w hw'

theorem fieldG_okOrNot {rec : Ext → RO → Nat → R V} (hr : ∀ ex ro b, OkOrNot (rec ex ro b)) (ex : Ext) (ro : RO) (f : GField) : OkOrNot (fieldG E S h rec ex ro f) := by
  unfold fieldG
  have h1 : ∀ l : List (Bytes × V), OkOrNot (.ok l) := fun l => .inl ⟨l, rfl⟩
  split
  · simp only
    split
    · exact h1 _
    · split
      · split <;> exact h1 _
      · exact okOrNot_bind (hr _ _ _) fun c _ => .inl (anonMembers_ok _ _ _)
  · split
    · exact h1 _
    · simp only
      split
      · exact h1 _
      · exact okOrNot_bind (hr _ _ _) fun c _ => h1 _

theorem fieldsG_okOrNot {rec : Ext → RO → Nat → R V} (hr : ∀ ex ro b, OkOrNot (rec ex ro b)) (ex : Ext) (ro : RO) : ∀ (fs : List GField) (v : V), AnObj v →
    OkOrNot (fieldsG E S h rec ex ro v fs)
  | [], ys, _ => .inl ⟨_, rfl⟩
  | f :: fs, v, hv => by
    rw [fieldsG]
    refine okOrNot_bind (fieldG_okOrNot hr ex ro f) fun l _ => ?_
    obtain ⟨w, hw, hw'⟩ := mustSetAll_obj (E := E) (l := l) hv
    rw [hw]
    exact fieldsG_okOrNot hr ex ro fs w hw'

theorem importG_okOrNot (hl : ∀ a x, h a = .leaf x → ∀ ex ro, ∃ v, importVal E S F ex ro x = .ok v) : ∀ (n : Nat) (ex : Ext) (ro : RO) (a : Nat),
    OkOrNot (importG E S F h n ex ro a)
  | 0, _, _, _ => .inr rfl
  | n + 1, ex, ro, a => by
    have ih := importG_okOrNot hl n
    unfold importG
    split
    · rename_i x hx; exact .inl (hl a x hx ex ro)
    · exact listG_okOrNot (fun b => ih _ _ b) _ _
    · split
      · exact .inl ⟨_, rfl⟩
      · exact listG_okOrNot (fun b => ih _ _ b) _ _
    · split
      · exact .inl ⟨_, rfl⟩
      · exact pairsG_okOrNot (fun b => ih _ _ b) _ _ ⟨_, _, _, rfl⟩
    · exact ih _ _ _
    · exact ih _ _ _
    · exact fieldsG_okOrNot ih _ _ _ _ ⟨_, _, _, rfl⟩

end JV
