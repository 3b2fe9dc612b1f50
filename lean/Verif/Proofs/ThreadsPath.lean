import Verif.Model.ThreadsPath
import Verif.Proofs.ThreadsMake
import Verif.Proofs.Sort
/-! Insert, Append and Delete with paths, SortArray and Unmarshal keep to what is their own. -/
namespace JV
open Spec

variable {α β : Type}

theorem keepsTo_getArray {F G : Nat → Prop} (E : Env) {v : Ptr} (hv : Own F v) (ps : List Param) : KeepsTo F G (OwnR F) (aGetArray E v ps) := by
  refine keepsTo_onOk (keepsTo_get (.inl rfl) E false (fun _ => rfl) hv ps) (fun q hq => ?_) ownR_other
  cases q with
  | none => exact ownR_panic
  | some b =>
    refine ⟨F, .inl rfl, hq _ rfl b rfl, fun c _ => ?_⟩
    dsimp only
    split
    · exact ownR_panic
    · exact hq
    · exact ownR_err

mutual
theorem keepsG_insertAt1 {F G : Nat → Prop} (E : Env) (after : Bool) : ∀ (p : Param) {v c : Ptr}, Own F v → Own F c → KeepsG G OwnR F (aInsertAt1 E after v c p)
  | .slice qs, v, c, hv, hc => by
    unfold aInsertAt1
    split
    · exact keepsG_lift (keepsTo_insert after hv hc _)
    · exact keepsG_insertAt E after qs [] hv hc
  | .str _, v, c, hv, hc | .int _, v, c, hv, hc | .uint _, v, c, hv, hc | .nil, v, c, hv, hc | .other, v, c, hv, hc => by
    unfold aInsertAt1
    exact keepsG_lift (keepsTo_insert after hv hc _)
theorem keepsG_insertAt {F G : Nat → Prop} (E : Env) (after : Bool) : ∀ (ps pre : List Param) {v c : Ptr}, Own F v → Own F c →
    KeepsG G OwnR F (aInsertAt E after v c pre ps)
  | [], _, _, _, _, _ => by unfold aInsertAt; exact ownR_panic
  | p :: rest, pre, v, c, hv, hc => by
    have h1 := keepsG_insertAt (F := F) (G := G) E after rest (pre ++ [p]) hv hc
    have h2 : ∀ v, Own F v → KeepsG G OwnR F (aInsertAt1 E after v c p) := fun v hv => keepsG_insertAt1 E after p hv hc
    unfold aInsertAt
    split
    · exact h1
    · split
      · exact h2 v hv
      · split
        · exact ownR_err
        · cases v with
          | none =>
            dsimp only
            split
            · exact ownR_err
            · exact ownR_panic
          | some a =>
            refine keepsG_uninit (.inl rfl) hv fun b => ?_
            split
            · exact ownR_err
            · refine keepsG_onOk (keepsG_of (keepsTo_getArray E hv _)) (fun F' q hs hq => ?_) (fun _ => ownR_other)
              obtain ⟨rfl, hq⟩ := hq
              exact h2 q (hq q rfl)
end

theorem keepsG_appendPath {F G : Nat → Prop} (E : Env) (beg : Bool) {v c : Ptr} (hv : Own F v) (hc : Own F c) (ps : List Param) :
    KeepsG G OwnR F (aAppendPath E beg v c ps) := by
  refine keepsG_andThen (keepsG_of (keepsTo_getArray E hv ps)) fun F' r hs hr => ?_
  obtain ⟨rfl, hr⟩ := hr
  split
  · next q => exact keepsG_lift (keepsTo_append beg (hr q rfl) hc)
  · refine ⟨(fun p hp => by cases hp), fun b _ _ => ?_⟩
    have hb : Own (plus F' b) (some b) := fun x hx => by cases hx; exact .inr rfl
    refine keepsG_onOk (keepsG_setAt E ps (own_mono (fun _ => .inl) hv) hb) (fun F2 q hs hq => ?_) (fun _ => ownR_other)
    exact keepsG_lift (keepsTo_append beg (hq q rfl) (own_mono (fun _ h => hs _ (.inl h)) hc))
  · exact ownR_err
  · exact ownR_panic
  · exact fun _ h => by cases h

mutual
theorem keepsG_appendAt1 {F G : Nat → Prop} (E : Env) (beg : Bool) : ∀ (p : Param) {v c : Ptr}, Own F v → Own F c → KeepsG G OwnR F (aAppendAt1 E beg v c p)
  | .slice qs, v, c, hv, hc => by unfold aAppendAt1; exact keepsG_appendAt E beg qs hv hc
  | .str _, v, c, hv, hc | .int _, v, c, hv, hc | .uint _, v, c, hv, hc | .nil, v, c, hv, hc | .other, v, c, hv, hc => by
    unfold aAppendAt1
    exact keepsG_appendPath E beg hv hc _
theorem keepsG_appendAt {F G : Nat → Prop} (E : Env) (beg : Bool) : ∀ (ps : List Param) {v c : Ptr}, Own F v → Own F c → KeepsG G OwnR F (aAppendAt E beg v c ps)
  | [], v, c, hv, hc => by
    unfold aAppendAt
    cases v with
    | none =>
      dsimp only
      split
      · exact ownR_err
      · exact ownR_panic
    | some a =>
      refine ⟨F, .inl rfl, hv a rfl, fun d _ => ?_⟩
      dsimp only
      split
      · exact ownR_panic
      · exact ownR_err
      · exact keepsG_lift (keepsTo_append beg hv hc)
      · exact ownR_err
  | p :: rest, v, c, hv, hc => by
    have h2 : ∀ v, Own F v → KeepsG G OwnR F (aAppendAt1 E beg v c p) := fun v hv => keepsG_appendAt1 E beg p hv hc
    unfold aAppendAt
    cases v with
    | none =>
      dsimp only
      split
      · exact ownR_err
      · exact ownR_panic
    | some a =>
      refine keepsG_uninit (.inl rfl) hv fun b => ?_
      split
      · exact ownR_err
      · split
        · exact ownR_err
        · split
          · exact h2 _ hv
          · exact keepsG_appendPath E beg hv hc _
end

mutual
theorem keepsG_deleteAt1 {F G : Nat → Prop} (E : Env) (cl : Bool) : ∀ (p : Param) {v : Ptr}, Own F v → KeepsG G OwnR F (aDeleteAt1 E cl v p)
  | .slice qs, v, hv => by
    unfold aDeleteAt1
    split
    · exact keepsG_lift (keepsTo_delete E cl hv _)
    · exact keepsG_deleteAt E cl qs [] hv
  | .str _, v, hv | .int _, v, hv | .uint _, v, hv | .nil, v, hv | .other, v, hv => by
    unfold aDeleteAt1
    exact keepsG_lift (keepsTo_delete E cl hv _)
theorem keepsG_deleteAt {F G : Nat → Prop} (E : Env) (cl : Bool) : ∀ (ps pre : List Param) {v : Ptr}, Own F v → KeepsG G OwnR F (aDeleteAt E cl v pre ps)
  | [], _, _, _ => by unfold aDeleteAt; exact ownR_panic
  | p :: rest, pre, v, hv => by
    have h1 := keepsG_deleteAt (F := F) (G := G) E cl rest (pre ++ [p]) hv
    have h2 : ∀ v, Own F v → KeepsG G OwnR F (aDeleteAt1 E cl v p) := fun v hv => keepsG_deleteAt1 E cl p hv
    unfold aDeleteAt
    split
    · exact h1
    · split
      · exact h2 v hv
      · split
        · exact ownR_err
        · refine keepsG_onOk (keepsG_of (keepsTo_get (.inl rfl) E cl (fun _ => rfl) hv _)) (fun F' q hs hq => ?_) (fun _ => ownR_other)
          obtain ⟨rfl, hq⟩ := hq
          exact h2 q (hq q rfl)
end

theorem keepsTo_sortArray {F G : Nat → Prop} (S : SortFn) (n : Nat) {v : Ptr} (hv : Own F v) (less : Option (V → V → Bool)) :
    KeepsTo F G (OwnR F) (aSortArray S n v less) := by
  cases less with
  | none => exact ownR_ok own_none
  | some f =>
    cases v with
    | none => exact ownR_panic
    | some a =>
      refine ⟨F, .inl rfl, hv a rfl, fun c hc => ?_⟩
      cases c with
      | none => exact ownR_panic
      | some c =>
        have hc := hc c rfl
        cases c with
        | arr xs =>
          refine keepsTo_onOk (keepsTo_readList (keepsTo_read (.inl rfl) n) xs hc) (fun vs _ => ⟨hv a rfl, cellIn_arr.2 fun p hp => ?_, ownR_ok own_none⟩) ownR_other
          obtain ⟨x, hx, rfl⟩ := List.mem_map.1 hp
          exact hc _ (List.of_mem_zip (sortBy_mem hx)).1
        | _ => exact ownR_ok own_none

/-- members that point into the own part -/
def OwnE (F : Nat → Prop) (r : R (List HEnt)) : Prop := ∀ es, r = .ok es → ∀ e ∈ es, Own F e.v

theorem ownE_other {F : Nat → Prop} (r : R (List HEnt)) (h : ∀ b, r ≠ .ok b) : OwnE F r := fun p hp => absurd hp (h p)

theorem keepsG_scalar {F G : Nat → Prop} {c : Cell} (hc : pointers c = []) : KeepsG G OwnR F (aNew c) := keepsG_new fun p hp => by rw [hc] at hp; cases hp

mutual
theorem keepsG_build {G : Nat → Prop} : ∀ (t : V) {F : Nat → Prop}, KeepsG G OwnR F (aBuild t)
  | .nilp, _ => by unfold aBuild; exact ownR_ok own_none
  | .notExist, _ | .str _, _ | .num _ _, _ | .bool _, _ | .null, _ => by unfold aBuild; exact keepsG_scalar rfl
  | .arr xs, F => by
    unfold aBuild
    exact keepsG_onOk (keepsG_builds xs) (fun F' ps _ hq => keepsG_new (cellIn_arr.2 (hq ps rfl))) (fun _ => ownR_other)
  | .obj n kvs low, F => by
    unfold aBuild
    exact keepsG_onOk (keepsG_buildEnts kvs) (fun F' ps _ hq => keepsG_new (cellIn_obj.2 (hq ps rfl))) (fun _ => ownR_other)
theorem keepsG_builds {G : Nat → Prop} : ∀ (ts : List V) {F : Nat → Prop}, KeepsG G OwnL F (aBuilds ts)
  | [], _ => by unfold aBuilds; exact fun _ h => by cases h; exact fun _ hp => by cases hp
  | v :: vs, F => by
    unfold aBuilds
    refine keepsG_onOk (keepsG_build v) (fun F' c hs hq => ?_) (fun _ => ownL_other)
    refine keepsG_onOk (keepsG_builds vs) (fun F'' cs hs' hq' => ?_) (fun _ => ownL_other)
    intro ps hps p hp
    cases hps
    rcases List.mem_cons.1 hp with rfl | hp
    · exact own_mono hs' (hq _ rfl)
    · exact hq' cs rfl p hp
theorem keepsG_buildEnts {G : Nat → Prop} : ∀ (ts : List Ent) {F : Nat → Prop}, KeepsG G OwnE F (aBuildEnts ts)
  | [], _ => by unfold aBuildEnts; exact fun _ h => by cases h; exact fun _ hp => by cases hp
  | .mk k i v :: vs, F => by
    unfold aBuildEnts
    refine keepsG_onOk (keepsG_build v) (fun F' c hs hq => ?_) (fun _ => ownE_other)
    refine keepsG_onOk (keepsG_buildEnts vs) (fun F'' cs hs' hq' => ?_) (fun _ => ownE_other)
    intro ps hps p hp
    cases hps
    rcases List.mem_cons.1 hp with rfl | hp
    · exact own_mono hs' (hq _ rfl)
    · exact hq' cs rfl p hp
end

theorem keepsG_unmarshal {F G : Nat → Prop} (E : Env) (b : Bytes) : KeepsG G OwnR F (aUnmarshal E b) := by
  unfold aUnmarshal
  split
  · exact ownR_err
  · exact keepsG_build _
  · exact ownR_err
  · exact ownR_panic
  · exact fun _ h => by cases h

theorem keepsG_load {F G : Nat → Prop} (E : Env) {v : Ptr} (hv : Own F v) (b : Bytes) : KeepsG G OwnR F (aLoad E v b) := by
  refine keepsG_onOk (keepsG_unmarshal E b) (fun F' n hs hq => ?_) (fun _ => ownR_other)
  split
  · next a n =>
    refine ⟨F', .inl rfl, hq _ rfl n rfl, fun c hc => ?_⟩
    cases c with
    | none => exact ownR_panic
    | some c => exact ⟨hq _ rfl n rfl, fun l => ⟨hs a (hv a rfl), hc c rfl, hs a (hv a rfl), ownR_ok own_none⟩⟩
  · exact ownR_panic

/-! ## loops with callbacks that make values -/

theorem keepsG_each {G : Nat → Prop} {H : (Nat → Prop) → Ptr → Prop} (hH : ∀ F F' p, (∀ a, F a → F' a) → H F p → H F' p) {f : α → Ptr → Act Bool} :
    ∀ (l : List (α × Ptr)) {F : Nat → Prop}, (∀ F' k c, (∀ a, F a → F' a) → H F' c → KeepsG G (fun _ _ => True) F' (f k c)) → (∀ x ∈ l, H F x.2) →
      KeepsG G (fun _ _ => True) F (aEach f l)
  | [], _, _, _ => trivial
  | (k, c) :: l, F, hf, h => keepsG_onOk (hf F k c (fun _ h => h) (h _ List.mem_cons_self)) (fun F' go hs _ => by
      split
      · exact keepsG_each hH l (fun F2 k c hs' => hf F2 k c fun a ha => hs' a (hs a ha)) fun x hx => hH F F' _ hs (h x (List.mem_cons_of_mem _ hx))
      · exact trivial) fun _ _ _ => trivial

theorem keepsG_rangeArray {F G : Nat → Prop} {v : Ptr} {f : Nat → Ptr → Act Bool} {own : Bool} (hv : if own then Own F v else Own G v)
    (hf : ∀ F' k c, (∀ a, F a → F' a) → (if own then Own F' c else Own G c) → KeepsG G (fun _ _ => True) F' (f k c)) :
    KeepsG G (fun _ _ => True) F (aRangeArray v f) := by
  have hl : ∃ H, Part F G H ∧ Own H v ∧ ∀ p, Own H p → if own then Own F p else Own G p := by
    cases own with
    | true => exact ⟨F, .inl rfl, hv, fun _ h => h⟩
    | false => exact ⟨G, .inr rfl, hv, fun _ h => h⟩
  obtain ⟨H, hH, hv, hp⟩ := hl
  refine keepsG_onOk (keepsG_of (keepsTo_look hH hv .ok)) (fun F' c _ hc => ?_) fun _ _ _ => trivial
  obtain ⟨rfl, hc⟩ := hc
  obtain ⟨d, hd, he⟩ := hc c rfl
  cases he
  cases c with
  | arr xs =>
    refine keepsG_each (H := fun F p => if own then Own F p else Own G p) (fun F F' p h hp => ?_) _ hf fun x hx => hp _ (hd _ (List.of_mem_zip hx).2)
    cases own with
    | true => exact own_mono h hp
    | false => exact hp
  | _ => exact trivial

theorem keepsG_rangeObjects {F G : Nat → Prop} {v : Ptr} {order : List HEnt → List HEnt} (ho : ∀ l, (order l).Perm l) {f : Bytes → Ptr → Act Bool} {own : Bool}
    (hv : if own then Own F v else Own G v)
    (hf : ∀ F' k c, (∀ a, F a → F' a) → (if own then Own F' c else Own G c) → KeepsG G (fun _ _ => True) F' (f k c)) :
    KeepsG G (fun _ _ => True) F (aRangeObjects order v f) := by
  have hl : ∃ H, Part F G H ∧ Own H v ∧ ∀ p, Own H p → if own then Own F p else Own G p := by
    cases own with
    | true => exact ⟨F, .inl rfl, hv, fun _ h => h⟩
    | false => exact ⟨G, .inr rfl, hv, fun _ h => h⟩
  obtain ⟨H, hH, hv, hp⟩ := hl
  refine keepsG_onOk (keepsG_of (keepsTo_look hH hv .ok)) (fun F' c _ hc => ?_) fun _ _ _ => trivial
  obtain ⟨rfl, hc⟩ := hc
  obtain ⟨d, hd, he⟩ := hc c rfl
  cases he
  cases c with
  | obj n kvs low =>
    refine keepsG_each (H := fun F p => if own then Own F p else Own G p) (fun F F' p h hp => ?_) _ hf fun x hx => ?_
    · cases own with
      | true => exact own_mono h hp
      | false => exact hp
    · obtain ⟨e, he, rfl⟩ := List.mem_map.1 hx
      exact hp _ (cellIn_obj.1 hd e ((ho kvs).mem_iff.1 he))
  | _ => exact trivial

/-! ## they are the functions of the heap model -/

theorem run_getArray (E : Env) (v : Ptr) (ps : List Param) (m : Mem) : (aGetArray E v ps).run m = m.gives (hgetArray E m.heap v ps) := by
  refine run_then (run_get E false v m ps) fun h q => ?_
  cases q with
  | none => rfl
  | some b =>
    simp only [Act.run, Mem.node]
    cases h[b]? with
    | none => rfl
    | some c => cases c <;> rfl

mutual
theorem run_insertAt1 (E : Env) (after : Bool) : ∀ (p : Param) (v c : Ptr) (m : Mem), (aInsertAt1 E after v c p).run m = m.gives (hinsertAt1 E after m.heap v c p)
  | .slice qs, v, c, m => by
    unfold aInsertAt1 hinsertAt1
    split
    · exact run_insertLast after v c _ m
    · exact run_insertAt E after qs [] v c m
  | .str _, v, c, m | .int _, v, c, m | .uint _, v, c, m | .nil, v, c, m | .other, v, c, m => by
    unfold aInsertAt1 hinsertAt1
    exact run_insertLast after v c _ m
theorem run_insertAt (E : Env) (after : Bool) : ∀ (ps pre : List Param) (v c : Ptr) (m : Mem),
    (aInsertAt E after v c pre ps).run m = m.gives (hinsertAt E after m.heap v c pre ps)
  | [], _, _, _, _ => by unfold aInsertAt hinsertAt; rfl
  | p :: rest, pre, v, c, m => by
    have h1 := run_insertAt E after rest (pre ++ [p]) v c m
    have h2 := fun v m => run_insertAt1 E after p v c m
    unfold aInsertAt hinsertAt
    split
    · exact h1
    · cases pre with
      | nil => exact h2 v m
      | cons first tl =>
        dsimp only
        split
        · rfl
        · cases v with
          | none => cases after <;> rfl
          | some a =>
            dsimp only
            rw [run_uninit]
            split
            · rfl
            · exact run_then (run_getArray E (some a) _ m) fun h q => h2 q { m with heap := h }
end

theorem run_appendPath (E : Env) (beg : Bool) (v c : Ptr) (ps : List Param) (m : Mem) :
    (aAppendPath E beg v c ps).run m = m.gives (happendPath E beg m.heap v c ps) := by
  unfold aAppendPath happendPath
  rw [run_andThen, run_getArray]
  obtain ⟨h, r⟩ : Heap × R Ptr := hgetArray E m.heap v ps
  cases r with
  | ok q => exact run_appendTo beg q c { m with heap := h }
  | err e =>
    cases e with
    | notFound =>
      exact run_then (m := { m with heap := h ++ [.arr []] }) (run_setAt E ps v _ _) fun h' q => run_appendTo beg q c { m with heap := h' }
    | _ => rfl
  | _ => rfl

mutual
theorem run_appendAt1 (E : Env) (beg : Bool) : ∀ (p : Param) (v c : Ptr) (m : Mem), (aAppendAt1 E beg v c p).run m = m.gives (happendAt1 E beg m.heap v c p)
  | .slice qs, v, c, m => by unfold aAppendAt1 happendAt1; exact run_appendAt E beg qs v c m
  | .str _, v, c, m | .int _, v, c, m | .uint _, v, c, m | .nil, v, c, m | .other, v, c, m => by
    unfold aAppendAt1 happendAt1
    exact run_appendPath E beg v c _ m
theorem run_appendAt (E : Env) (beg : Bool) : ∀ (ps : List Param) (v c : Ptr) (m : Mem), (aAppendAt E beg v c ps).run m = m.gives (happendAt E beg m.heap v c ps)
  | [], v, c, m => by
    unfold aAppendAt happendAt
    cases v with
    | none => cases beg <;> rfl
    | some a =>
      simp only [Act.run, Mem.node]
      cases hc : m.heap[a]? with
      | none => rfl
      | some d =>
        cases d with
        | arr xs => exact run_appendTo beg (some a) c m
        | _ => rfl
  | p :: rest, v, c, m => by
    have h2 := fun v m => run_appendAt1 E beg p v c m
    unfold aAppendAt happendAt
    cases v with
    | none => cases beg <;> rfl
    | some a =>
      dsimp only
      rw [run_uninit]
      split
      · rfl
      · split
        · rfl
        · split
          · exact h2 _ m
          · exact run_appendPath E beg _ c _ m
end

mutual
theorem run_deleteAt1 (E : Env) (cl : Bool) : ∀ (p : Param) (v : Ptr) (m : Mem), (aDeleteAt1 E cl v p).run m = m.gives (hdeleteAt1 E cl m.heap v p)
  | .slice qs, v, m => by
    unfold aDeleteAt1 hdeleteAt1
    split
    · exact run_deleteLast E cl v _ m
    · exact run_deleteAt E cl qs [] v m
  | .str _, v, m | .int _, v, m | .uint _, v, m | .nil, v, m | .other, v, m => by
    unfold aDeleteAt1 hdeleteAt1
    exact run_deleteLast E cl v _ m
theorem run_deleteAt (E : Env) (cl : Bool) : ∀ (ps pre : List Param) (v : Ptr) (m : Mem), (aDeleteAt E cl v pre ps).run m = m.gives (hdeleteAt E cl m.heap v pre ps)
  | [], _, _, _ => by unfold aDeleteAt hdeleteAt; rfl
  | p :: rest, pre, v, m => by
    have h1 := run_deleteAt E cl rest (pre ++ [p]) v m
    have h2 := fun v m => run_deleteAt1 E cl p v m
    unfold aDeleteAt hdeleteAt
    split
    · exact h1
    · cases pre with
      | nil => exact h2 v m
      | cons first tl =>
        dsimp only
        split
        · rfl
        · exact run_then (run_get E cl v m _) fun h q => h2 q { m with heap := h }
end

theorem run_sortArray (S : SortFn) (n : Nat) (v : Ptr) (less : Option (V → V → Bool)) (m : Mem) (hm : m.plain = m.heap) :
    (aSortArray S n v less).run m = m.gives (hsortArray S n m.heap v less) := by
  cases less with
  | none => rfl
  | some f =>
    cases v with
    | none => rfl
    | some a =>
      simp only [aSortArray, Act.run, hsortArray, Mem.node]
      cases hc : m.heap[a]? with
      | none => rfl
      | some d =>
        cases d with
        | arr xs =>
          simp only [Option.map_some, Cell.plain, Act.onOk]
          rw [run_andThen, run_readList (fun p => by rw [run_read, hm])]
          dsimp only
          cases hreadList (hread n m.heap) xs <;> rfl
        | _ => rfl

mutual
theorem run_build : ∀ (t : V) (m : Mem), (aBuild t).run m = m.gives ((hbuild m.heap t).1, .ok (hbuild m.heap t).2)
  | .nilp, _ | .notExist, _ | .str _, _ | .num _ _, _ | .bool _, _ | .null, _ => by unfold aBuild hbuild; rfl
  | .arr xs, m => by
    unfold aBuild hbuild Act.onOk
    rw [run_andThen, run_builds xs m]
    rfl
  | .obj n kvs low, m => by
    unfold aBuild hbuild Act.onOk
    rw [run_andThen, run_buildEnts kvs m]
    rfl
theorem run_builds : ∀ (ts : List V) (m : Mem), (aBuilds ts).run m = m.gives ((hbuilds m.heap ts).1, .ok (hbuilds m.heap ts).2)
  | [], _ => by unfold aBuilds hbuilds; rfl
  | v :: vs, m => by
    unfold aBuilds hbuilds Act.onOk
    rw [run_andThen, run_build v m]
    simp only [Mem.gives]
    rw [run_andThen, run_builds vs]
    rfl
theorem run_buildEnts : ∀ (ts : List Ent) (m : Mem), (aBuildEnts ts).run m = m.gives ((hbuildEnts m.heap ts).1, .ok (hbuildEnts m.heap ts).2)
  | [], _ => by unfold aBuildEnts hbuildEnts; rfl
  | .mk k i v :: vs, m => by
    unfold aBuildEnts hbuildEnts Act.onOk
    rw [run_andThen, run_build v m]
    simp only [Mem.gives]
    rw [run_andThen, run_buildEnts vs]
    rfl
end

theorem set_beyond {h : Heap} {a : Nat} (c : Cell) (ha : h.length ≤ a) : h.set a c = h := List.set_eq_of_length_le ha

theorem plain_withIndex (c : Cell) : c.plain.withIndex c.index = c := by cases c <;> rfl
theorem withIndex_twice (c : Cell) (l k : Low) : (c.withIndex l).withIndex k = c.withIndex k := by cases c <;> rfl

theorem run_load (E : Env) (v : Ptr) (b : Bytes) (m : Mem) : (aLoad E v b).run m = m.gives (hload E m.heap v b) := by
  unfold aLoad hload aUnmarshal Act.onOk
  rw [run_andThen]
  generalize goUnmarshal E b = r
  rcases r with ⟨_, res, _ | e⟩ | _ | _ | _
  · dsimp only
    rw [run_build]
    simp only [Mem.gives]
    unfold hoverwrite
    cases v with
    | none => rfl
    | some a =>
      cases hn : (hbuild m.heap res).2 with
      | none => rfl
      | some n =>
        simp only [Act.run, Mem.node]
        cases hc : (hbuild m.heap res).1[n]? with
        | none => rfl
        | some c =>
          simp only [Option.map_some, Act.run, Mem.index, hc]
          by_cases ha : a < (hbuild m.heap res).1.length
          · have h1 := List.getElem?_eq_getElem ha
            simp only [Mem.setNode, Mem.index, Mem.setIndex, List.getElem?_set_self ha, h1, List.set_set, withIndex_twice, plain_withIndex]
          · have h1 : (hbuild m.heap res).1[a]? = none := List.getElem?_eq_none (Nat.le_of_not_lt ha)
            simp only [Mem.setNode, Mem.index, h1, Mem.setIndex, set_beyond _ (Nat.le_of_not_lt ha)]
  all_goals rfl

end JV
