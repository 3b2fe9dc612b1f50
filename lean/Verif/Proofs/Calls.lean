import Verif.Spec.Calls
import Verif.Proofs.Typed
import Verif.Proofs.Describe
import Verif.Proofs.Export
import Verif.Proofs.Layout
import Verif.Proofs.Compare
/-! Which calls panic. -/
namespace JV
open Spec

variable {E : Env} {S : SortFn} {D : DecFn} {d : Opt} {σ : Type}

theorem done_returns {α : Type} {r : R α} : r.done.returns ↔ r.returns := by cases r <;> simp [R.done, R.returns]
theorem call_returns_ok {α : Type} {r : R α} {a : α} (h : r = .ok a) : r.returns := h ▸ trivial
theorem call_returns_err {α : Type} {r : R α} {e : Err} (h : r = .err e) : r.returns := h ▸ trivial

theorem closed_notNil (E : Env) : Closed E NotNil where
  put := by
    intro v s d h
    match v, s, h with
    | .obj n kvs low, .key k, h => exact nofun
    | .obj n kvs low, .idx k, h => exact h
    | .arr xs, .key k, h => exact h
    | .arr xs, .idx i, h => exact nofun
    | .nilp, _, h => exact h
    | .notExist, _, h => exact h
    | .str _, _, h => exact h
    | .num _ _, _, h => exact h
    | .bool _, _, h => exact h
    | .null, _, h => exact h
  arr := fun _ => nofun
  obj0 := nofun
  setKey := fun n kvs low k c h => nofun
  del := fun n kvs low k h => nofun
  low := fun cl n kvs low k h => nofun

theorem usable_her {v : V} (h : Usable E v) : Her (fun v => GoodNode E v ∧ NotNil v) v := fun l c hc => ⟨built_good h.1 l c hc, fun h' => h.2 l (h' ▸ hc)⟩

theorem usable_of {v : V} (hb : Built E Any v) (h : Her (fun v => GoodNode E v ∧ NotNil v) v) : Usable E v := ⟨hb, fun l hl => (h l _ hl).2 rfl⟩

/-- a value built from other things than nil pointers -/
theorem built_usable {v : V} (h : Built E NotNil v) : Usable E v := by
  have hP := (closed_good E).and (closed_notNil E)
  induction h with
  | scalar v hs hl => exact ⟨.scalar v hs trivial, fun l hl' => by
      cases l with
      | nil => exact hl (Option.some.inj hl')
      | cons s l => cases v <;> first | exact hs.elim | (simp [V.at, V.child] at hl')⟩
  | parsed s v hs => exact ⟨.parsed s v hs, fun l hl => (her_unmarshal_solid hs l _ hl).1 rfl⟩
  | object => exact usable_of .object (her_iff.2 ⟨hP.obj0, by intro s c hc; cases s <;> simp [newObject, V.child, lookup] at hc⟩)
  | array => exact usable_of .array ((her_arr hP).2 (by simp))
  | set v ch ps _ _ h1 h2 => exact usable_of (.set v ch ps h1.1 h2.1) (her_set hP ps (usable_her h1) (usable_her h2))
  | insert after v ch ps _ _ h1 h2 => exact usable_of (.insert after v ch ps h1.1 h2.1) (her_insert hP after ps (usable_her h1) (usable_her h2))
  | append beg v ch ps _ _ h1 h2 => exact usable_of (.append beg v ch ps h1.1 h2.1) (her_append hP beg ps (usable_her h1) (usable_her h2))
  | delete cl v ps _ h1 => exact usable_of (.delete cl v ps h1.1) (her_delete hP (fun n kvs low h => h.1.1) cl ps (usable_her h1))
  | read cl v ps _ h1 => exact usable_of (.read cl v ps h1.1) (her_getC hP cl ps (usable_her h1))
  | child v l c _ hc h1 => exact usable_of (.child v l c h1.1 hc) (her_at (usable_her h1) hc)
  | inner v l c d _ hc _ h1 h2 => exact usable_of (.inner v l c d h1.1 hc h2.1) (her_replace hP hc (usable_her h1) (usable_her h2))
  | reorder v w _ hr h1 =>
    refine usable_of (.reorder v w h1.1 hr) ?_
    have h1 := usable_her h1
    rw [her_iff] at h1 ⊢
    refine ⟨⟨reorder_good hr h1.1.1, by cases hr; exact nofun⟩, fun s c hc => h1.2 s c (by rw [← reorder_child hr h1.1.1]; exact hc)⟩
  | sort S v less w _ hs h1 => exact usable_of (.sort S v less w h1.1 hs) (her_sort hP hs (usable_her h1))
  | copy v _ hn h1 => exact usable_of (.copy v h1.1 hn) (her_deepCopy (fun w h => ⟨good_deepCopy w h.1, by cases w <;> simp [deepCopy, NotNil]⟩) (usable_her h1))

theorem usable_keys {v : V} (h : Usable E v) : Her KeysNodup v := fun l c hc => by
  have := built_good h.1 l c hc
  cases c with
  | obj n kvs low => exact this.1
  | _ => trivial

/-! ### the calls one by one -/

theorem getC_returns (cl : Bool) {v : V} {ps : List Param} (hne : ps ≠ []) (hn : NoNil v) : (getC E cl v ps).2.returns := by
  rcases getC_cases E cl v ps hne hn with ⟨_, c, _, h, -⟩ | ⟨e, h⟩
  · exact call_returns_ok h
  · exact call_returns_err h

theorem mustGet_returns {v : V} {ps : List Param} (hne : ps ≠ []) (hn : NoNil v) : (mustGet E v ps).returns := by
  unfold mustGet
  rcases getC_cases E false v ps hne hn with ⟨_, c, _, h, -⟩ | ⟨e, h⟩
  · rw [get, h]; trivial
  · rw [get, h]; trivial

theorem typedGet_returns {α : Type} (cl : Bool) {zero : α} {conv : V → Ret α} {v : V} {ps : List Param} (hne : ps ≠ []) (hn : NoNil v)
    (hc : ∀ c, (getC E cl v ps).2 = .ok c → c ≠ .nilp → (conv c).returns) : (typedGet E cl zero conv v ps).returns := by
  unfold typedGet
  rcases getC_cases E cl v ps hne hn with ⟨_, c, _, h, -, -, h4⟩ | ⟨e, h⟩
  · rw [h]; exact hc c h h4
  · rw [h]; trivial

theorem getOther_returns (k : Getter) (cl : Bool) {v : V} {ps : List Param} (hne : ps ≠ []) (hn : NoNil v) : (k.get E cl v ps).returns := by
  have : ∀ {α : Type} {zero : α} {conv : V → Ret α}, (∀ c, c ≠ .nilp → (conv c).returns) → (typedGet E cl zero conv v ps).done.returns := fun h =>
    done_returns.2 (typedGet_returns cl hne hn fun c _ hc => h c hc)
  cases k with
  | bytes =>
    refine this fun c hc => ?_
    cases c with
    | nilp => exact absurd rfl hc
    | str s => simp only; cases b64Decode s <;> trivial
    | _ => trivial
  | _ => refine this fun c hc => ?_; cases c <;> first | exact absurd rfl hc | trivial

theorem convNum_panic {α : Type} {f : V → R α} {c : V} {s : Bytes} (hc : c = .str s) (hs : E.trimSpace s = []) : convNum E f c = .panic := by
  subst hc; simp [convNum, numberAndErr, hs, parseNumberV_empty]

theorem typedConv_iff {α : Type} (cl : Bool) {zero : α} {f : V → R α} (pr : Num → α) (hf : ∀ src n, f (.num src n) = .ok (pr n)) {v : V} {ps : List Param} (hne : ps ≠ []) (hn : NoNil v) :
    ((typedGet E cl zero (convNum E f) v ps).done = .panic ↔ ∃ s, (getC E cl v ps).2 = .ok (.str s) ∧ E.trimSpace s = []) ∧
      (typedGet E cl zero (convNum E f) v ps).done ≠ .diverge := by
  by_cases hb : ∃ s, (getC E cl v ps).2 = .ok (.str s) ∧ E.trimSpace s = []
  · obtain ⟨s, h1, h2⟩ := hb
    have : typedGet E cl zero (convNum E f) v ps = .panic := by unfold typedGet; rw [h1]; exact convNum_panic rfl h2
    rw [this]
    exact ⟨⟨fun _ => ⟨s, h1, h2⟩, fun _ => rfl⟩, nofun⟩
  · have hr : (typedGet E cl zero (convNum E f) v ps).returns := typedGet_returns cl hne hn fun c h1 h2 => by
      obtain ⟨x, e, h⟩ := convNum_total E f pr hf c h2 fun s hs h0 => hb ⟨s, hs ▸ h1, h0⟩
      exact call_returns_ok h
    cases hh : typedGet E cl zero (convNum E f) v ps with
    | ok r => exact ⟨⟨nofun, fun h => absurd h hb⟩, nofun⟩
    | err e => exact ⟨⟨nofun, fun h => absurd h hb⟩, nofun⟩
    | panic => rw [hh] at hr; exact hr.elim
    | diverge => rw [hh] at hr; exact hr.elim

theorem getNum_iff (k : NumConv) (cl : Bool) {v : V} {ps : List Param} (hne : ps ≠ []) (hn : NoNil v) :
    (k.get E cl v ps = .panic ↔ ∃ s, (getC E cl v ps).2 = .ok (.str s) ∧ E.trimSpace s = []) ∧ k.get E cl v ps ≠ .diverge := by
  cases k with
  | int64 => exact typedConv_iff cl Num.i64 (fun _ _ => rfl) hne hn
  | uint64 => exact typedConv_iff cl Num.u64 (fun _ _ => rfl) hne hn
  | int32 => exact typedConv_iff cl (fun n => n.i64.truncate 32) (fun _ _ => rfl) hne hn
  | uint32 => exact typedConv_iff cl (fun n => n.u64.truncate 32) (fun _ _ => rfl) hne hn
  | float64 => exact typedConv_iff cl Num.f64 (fun _ _ => rfl) hne hn
  | float32 => exact typedConv_iff cl (fun n => E.f64ToF32 n.f64) (fun _ _ => rfl) hne hn

theorem parseNumberV_num {s : Bytes} {w : V} (h : parseNumberV E s = .ok w) : ∃ t n, w = .num t n := by
  unfold parseNumberV at h
  cases hp : parseNumber E s with
  | ok r =>
    rw [hp] at h
    simp only [R.bind_ok] at h
    split at h
    · cases h
    · simp at h; exact ⟨_, _, h.symm⟩
  | err e => rw [hp] at h; cases h
  | panic => simp only [hp] at h; cases h
  | diverge => simp only [hp] at h; cases h

theorem numRec_iff {v : V} (hn : v ≠ .nilp) : (numRec E v = .panic ∧ ∃ s, v = .str s ∧ s ≠ [] ∧ E.trimSpace s = []) ∨
    ((∃ n, numRec E v = .ok n) ∧ ¬ ∃ s, v = .str s ∧ s ≠ [] ∧ E.trimSpace s = []) := by
  cases v with
  | nilp => exact absurd rfl hn
  | num s n => exact .inr ⟨⟨_, rfl⟩, by rintro ⟨s, h, -⟩; cases h⟩
  | str s =>
    by_cases h0 : s = []
    · subst h0
      exact .inr ⟨⟨_, rfl⟩, by rintro ⟨s, h, h', -⟩; cases h; exact h' rfl⟩
    · by_cases ht : E.trimSpace s = []
      · exact .inl ⟨by simp [numRec, numberFromNotNumber, h0, ht, parseNumberV_empty], s, rfl, h0, ht⟩
      · refine .inr ⟨?_, by rintro ⟨s, h, h', h''⟩; cases h; exact ht h''⟩
        rcases parseNumberV_fine E _ ht with ⟨w, h⟩ | ⟨e, h⟩
        · obtain ⟨t, n, rfl⟩ := parseNumberV_num h
          exact ⟨n, by simp [numRec, numberFromNotNumber, h0, h]⟩
        · exact ⟨_, by simp [numRec, numberFromNotNumber, h0, h, newInt64]; rfl⟩
  | _ => exact .inr ⟨⟨_, rfl⟩, by rintro ⟨s, h, -⟩; cases h⟩

theorem num_iff (k : NumConv) {v : V} (hn : v ≠ .nilp) :
    (k.run E v = .panic ↔ ∃ s, v = .str s ∧ s ≠ [] ∧ E.trimSpace s = []) ∧ k.run E v ≠ .diverge := by
  rcases numRec_iff (E := E) hn with ⟨h, hb⟩ | ⟨⟨n, h⟩, hb⟩
  · cases k <;> simp [NumConv.run, int64, uint64, int32, uint32, float64, float32, h, R.done, hb]
  · cases k <;> simp [NumConv.run, int64, uint64, int32, uint32, float64, float32, h, R.done] <;> simpa using hb

theorem set_returns {v : V} {ch : Ch} {ps : List Param} (hne : ps ≠ []) : (set E v ch ps).2.returns := by
  rcases set_spec E v ch ps hne with ⟨m, h, -⟩ | ⟨e, h⟩
  · exact call_returns_ok h
  · rw [h]; trivial

theorem insert_returns (after : Bool) {v : V} {ch : Ch} {ps : List Param} (hne : ps ≠ []) (hn : NoNil v) : (insert E after v ch ps).2.returns := by
  unfold insert
  cases ch.err with
  | some e => trivial
  | none =>
    rcases insertAt_out E after ch.c ps v [] hne with ⟨l, xs, ys, i, h, -⟩ | ⟨e, h⟩ | ⟨-, m, h⟩
    · exact call_returns_ok h
    · simp only; rw [h]; trivial
    · exact absurd h (hn m)

theorem append_returns (beg : Bool) {v : V} {ch : Ch} {ps : List Param} (hn : NoNil v) : (append E beg v ch ps).2.returns := by
  unfold append
  rcases appendAt_out E beg ch.c ps v with ⟨l, xs, ys, i, h, -⟩ | ⟨ps', v1, l, -, -, h⟩ | ⟨e, h⟩ | ⟨-, m, h⟩
  · exact call_returns_ok h
  · rw [h]; trivial
  · rw [h]; trivial
  · exact absurd h (hn m)

theorem deleteLast_returns (cl : Bool) {v : V} (p : Param) (hn : v ≠ .nilp) : (deleteLast E cl v p).2.returns := by
  cases v with
  | nilp => exact absurd rfl hn
  | arr xs =>
    rw [deleteLast_arr]
    cases intOf p with
    | none => trivial
    | some z => simp only; cases index xs.length z <;> trivial
  | obj n kvs low =>
    unfold deleteLast
    have : ∀ p, (∃ k, anyToString p = .ok k) ∨ ∃ e, anyToString p = .err e := by
      intro p; cases p <;> first | exact .inl ⟨_, rfl⟩ | exact .inr ⟨_, rfl⟩
    rcases this p with ⟨k, h⟩ | ⟨e, h⟩
    · simp only [h]
      rcases delKey E cl n kvs low k with ⟨w, b⟩
      cases b <;> trivial
    · simp only [h]; trivial
  | _ => trivial

mutual
theorem deleteAt1_returns (cl : Bool) : ∀ (p : Param) (v : V), NoNil v → (deleteAt1 E cl v p).2.returns
  | .slice qs, v, h => by
    match qs with
    | [] => rw [deleteAt1_empty]; exact deleteLast_returns cl _ fun h' => h [] (h' ▸ rfl)
    | q :: qs => rw [deleteAt1_slice]; exact deleteAt_returns cl (q :: qs) v [] (by simp) h
  | .nil, v, h => deleteLast_returns cl _ fun h' => h [] (h' ▸ rfl)
  | .int i, v, h => deleteLast_returns cl _ fun h' => h [] (h' ▸ rfl)
  | .uint i, v, h => deleteLast_returns cl _ fun h' => h [] (h' ▸ rfl)
  | .str k, v, h => deleteLast_returns cl _ fun h' => h [] (h' ▸ rfl)
  | .other, v, h => deleteLast_returns cl _ fun h' => h [] (h' ▸ rfl)
termination_by structural p => p
theorem deleteAt_returns (cl : Bool) : ∀ (ps : List Param) (v : V) (pre : List Param), ps ≠ [] → NoNil v → (deleteAt E cl v pre ps).2.returns
  | [], v, pre, hne, h => absurd rfl hne
  | p :: rest, v, pre, hne, h => by
    have h1 := deleteAt1_returns cl p
    have h2 := deleteAt_returns cl rest v
    match rest with
    | q :: qs =>
      unfold deleteAt
      rw [if_pos (by simp)]
      exact h2 _ (by simp) h
    | [] =>
      match pre with
      | [] => rw [deleteAt_one]; exact h1 v h
      | a :: pre =>
        rw [deleteAt_last']
        by_cases ha : a.isSlice = true
        · rw [if_pos ha]; trivial
        · rw [if_neg ha]
          have hr := her_resolve (closed_notNil E) cl (a :: pre) v fun l c hc hc' => h l (hc' ▸ hc)
          rcases resolve_cases_cl E cl (a :: pre) v with ⟨l, hs⟩ | ⟨e, hs⟩ | ⟨hs, h'⟩
          · obtain ⟨w, hw⟩ := resolve_at E cl _ v l hs
            simp only [hs]
            rw [modify_eq _ hw]
            exact h1 w fun l' hl' => her_at hr hw l' _ hl' rfl
          · simp only [hs]; trivial
          · rcases h' with h' | ⟨m, h'⟩
            · cases h'
            · exact absurd h' (h m)
termination_by structural ps => ps
end

theorem call_marshal_returns {v : V} {opts : List MOpt} (hk : Her KeysNodup v) (hn : NoNil v) : ∃ b e, marshal E S d v opts = .ok (b, e) := by
  by_cases h0 : v = .notExist
  · subst h0; exact ⟨_, _, rfl⟩
  · rw [marshal_eq d ⟨hk, hn, h0⟩]
    cases errOf (optOf d opts) v with
    | none => exact ⟨_, _, rfl⟩
    | some e => exact ⟨_, _, rfl⟩

theorem containsAt_returns {v sub : V} (path : List Param) (hk : Her KeysNodup v) (hn : NoNil v) (hk' : Her KeysNodup sub) (hn' : NoNil sub) : (containsAt E D v sub path).returns := by
  have key : ∀ w, Her KeysNodup w → (contains E D sub w).returns := fun w hw => by
    obtain ⟨⟨b, h⟩, -⟩ := contains_iff E D sub w hk' hw fun l c hc h' => hn' l (h' ▸ hc)
    exact call_returns_ok h
  unfold containsAt
  cases v with
  | nilp => trivial
  | _ =>
    cases path with
    | nil => exact key _ hk
    | cons p ps =>
      simp only
      rcases getC_cases E false _ (p :: ps) (by simp) hn with ⟨l, c, _, h, -, -, h4⟩ | ⟨e, h⟩
      · rw [get, h]
        obtain ⟨m, -, hm⟩ := (get_iff E _ (p :: ps) c).1 h
        have := key c (her_at hk hm)
        cases c <;> first | exact absurd rfl h4 | exact this
      · rw [get, h]; trivial

theorem insertAt_nil {E : Env} (after : Bool) (c : V) : ∀ (ps pre : List Param), Plain (pre ++ ps) → ps ≠ [] →
    (insertAt E after .nilp c pre ps).2 = if after then .err .valueUninitialized else .panic
  | [], _, _, h0 => absurd rfl h0
  | p :: rest, pre, h, _ => by
    unfold insertAt
    cases rest with
    | cons q qs => rw [if_pos (by simp)]; exact insertAt_nil after c (q :: qs) (pre ++ [p]) (by simpa using h) (by simp)
    | nil =>
      rw [if_neg (by simp)]
      have h1 := h p (by simp)
      cases pre with
      | nil => simp only; unfold insertAt1; cases p <;> first | (cases h1; done) | (simp only [insertLast]; cases after <;> rfl)
      | cons a as => simp only; rw [if_neg (by simp [h a (by simp)])]; cases after <;> rfl

theorem deleteAt_nil {E : Env} (cl : Bool) : ∀ (ps pre : List Param), Plain (pre ++ ps) → ps ≠ [] →
    (∀ cl p ps, Plain (p :: ps) → (resolve E cl .nilp (p :: ps)) = (.nilp, .panic)) → (deleteAt E cl .nilp pre ps).2 = .panic
  | [], _, _, h0, _ => absurd rfl h0
  | p :: rest, pre, h, _, hr => by
    unfold deleteAt
    cases rest with
    | cons q qs => rw [if_pos (by simp)]; exact deleteAt_nil cl (q :: qs) (pre ++ [p]) (by simpa using h) (by simp) hr
    | nil =>
      rw [if_neg (by simp)]
      have h1 := h p (by simp)
      cases pre with
      | nil => simp only; unfold deleteAt1; cases p <;> first | (cases h1; done) | rfl
      | cons a as =>
        simp only
        rw [if_neg (by simp [h a (by simp)]), hr cl a as fun q hq => h q (by simp at hq ⊢; rcases hq with rfl | hq <;> simp [*])]

end JV
