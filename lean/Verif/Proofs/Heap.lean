import Verif.Spec.Heap
import Verif.Proofs.Modify
import Verif.Proofs.Caseless
/-!
Heaps and the trees they show.
-/
namespace JV
open Spec

/-! ## frames -/

mutual
theorem shows_frame {h h' : Heap} : ∀ {p v F}, Hangs h p v F → (∀ a ∈ F, h'[a]? = h[a]?) → Hangs h' p v F
  | _, _, _, .nil, _ => .nil
  | _, _, _, .node a c v F hc hs hk, hf =>
    .node a c v F (by rw [hf a (List.mem_cons_self ..)]; exact hc) hs (showsL_frame hk fun b hb => hf b (List.mem_cons_of_mem _ hb))
theorem showsL_frame {h h' : Heap} : ∀ {ps vs F}, HangsL h ps vs F → (∀ a ∈ F, h'[a]? = h[a]?) → HangsL h' ps vs F
  | _, _, _, .nil, _ => .nil
  | _, _, _, .cons p v F ps vs G hp hps, hf =>
    .cons p v F ps vs G (shows_frame hp fun a ha => hf a (List.mem_append_left _ ha)) (showsL_frame hps fun a ha => hf a (List.mem_append_right _ ha))
end

mutual
theorem shows_lt {h : Heap} : ∀ {p v F}, Hangs h p v F → ∀ a ∈ F, a < h.length
  | _, _, _, .nil, a, ha => by cases ha
  | _, _, _, .node a c v F hc hs hk, b, hb => by
    rcases List.mem_cons.1 hb with rfl | hb
    · exact (List.getElem?_eq_some_iff.1 hc).1
    · exact showsL_lt hk b hb
theorem showsL_lt {h : Heap} : ∀ {ps vs F}, HangsL h ps vs F → ∀ a ∈ F, a < h.length
  | _, _, _, .nil, a, ha => by cases ha
  | _, _, _, .cons p v F ps vs G hp hps, a, ha => by
    rcases List.mem_append.1 ha with ha | ha
    · exact shows_lt hp a ha
    · exact showsL_lt hps a ha
end

theorem showsL_length {h : Heap} : ∀ {ps vs F}, HangsL h ps vs F → ps.length = vs.length
  | _, _, _, .nil => rfl
  | _, _, _, .cons p v F ps vs G hp hps => by simp [showsL_length hps]

/-! ## lists -/

theorem showsL_append {h : Heap} : ∀ {ps vs F qs ws G}, HangsL h ps vs F → HangsL h qs ws G → HangsL h (ps ++ qs) (vs ++ ws) (F ++ G)
  | _, _, _, _, _, _, .nil, hq => hq
  | _, _, _, _, _, _, .cons p v F ps vs G hp hps, hq => by
    rw [List.append_assoc]; exact .cons _ _ _ _ _ _ hp (showsL_append hps hq)

theorem showsL_one {h : Heap} {p v F} (hp : Hangs h p v F) : HangsL h [p] [v] F := by
  have := HangsL.cons p v F [] [] [] hp .nil
  rwa [List.append_nil] at this

theorem showsL_split {h : Heap} : ∀ (i : Nat) {ps vs F}, HangsL h ps vs F →
    ∃ F1 F2, F = F1 ++ F2 ∧ HangsL h (ps.take i) (vs.take i) F1 ∧ HangsL h (ps.drop i) (vs.drop i) F2
  | 0, _, _, F, hp => ⟨[], F, rfl, .nil, hp⟩
  | _ + 1, _, _, _, .nil => ⟨[], [], rfl, .nil, .nil⟩
  | i + 1, _, _, _, .cons p v F ps vs G hp hps => by
    obtain ⟨F1, F2, rfl, h1, h2⟩ := showsL_split i hps
    exact ⟨F ++ F1, F2, by rw [List.append_assoc], .cons _ _ _ _ _ _ hp h1, h2⟩

theorem showsL_cons_inv {h : Heap} {p ps v vs F} (hp : HangsL h (p :: ps) (v :: vs) F) : ∃ F1 F2, F = F1 ++ F2 ∧ Hangs h p v F1 ∧ HangsL h ps vs F2 := by
  cases hp with | cons _ _ F _ _ G h1 h2 => exact ⟨F, G, rfl, h1, h2⟩

/-- one element in focus -/
theorem showsL_focus {h : Heap} {ps vs F} (hp : HangsL h ps vs F) {i : Nat} {w : V} (hw : vs[i]? = some w) :
    ∃ q F1 G F2, ps[i]? = some q ∧ F = F1 ++ (G ++ F2) ∧ Hangs h q w G ∧ HangsL h (ps.take i) (vs.take i) F1 ∧
      HangsL h (ps.drop (i + 1)) (vs.drop (i + 1)) F2 := by
  obtain ⟨F1, F', rfl, h1, h2⟩ := showsL_split i hp
  obtain ⟨hi, hiw⟩ := List.getElem?_eq_some_iff.1 hw
  have hi' : i < ps.length := by rw [showsL_length hp]; exact hi
  rw [List.drop_eq_getElem_cons hi, List.drop_eq_getElem_cons hi'] at h2
  obtain ⟨G, F2, rfl, h3, h4⟩ := showsL_cons_inv h2
  rw [hiw] at h3
  exact ⟨ps[i], F1, G, F2, List.getElem?_eq_getElem hi', rfl, h3, h1, h4⟩

theorem take_set_drop {α : Type} (xs : List α) (i : Nat) (x : α) (h : i < xs.length) : xs.set i x = xs.take i ++ x :: xs.drop (i + 1) := by
  rw [List.set_eq_take_append_cons_drop, if_pos h]

/-! ## objects -/

/-- position of a key -/
def keyIdx (k : Bytes) : List Bytes → Option Nat
  | [] => none
  | x :: xs => if x = k then some 0 else (keyIdx k xs).map (· + 1)

theorem lookup_keyIdx (k : Bytes) (es : List Ent) : lookup k es = (keyIdx k (es.map Ent.key)).bind (es[·]?) := by
  induction es with
  | nil => rfl
  | cons e es ih =>
    simp only [lookup, List.map_cons, keyIdx]
    split
    · rfl
    · rw [ih]; cases keyIdx k (es.map Ent.key) <;> simp

theorem hlookup_keyIdx (k : Bytes) (es : List HEnt) : hlookup k es = (keyIdx k (es.map HEnt.key)).bind (es[·]?) := by
  induction es with
  | nil => rfl
  | cons e es ih =>
    simp only [hlookup, List.map_cons, keyIdx]
    split
    · rfl
    · rw [ih]; cases keyIdx k (es.map HEnt.key) <;> simp

theorem assign_keyIdx (e : Ent) (es : List Ent) : assign e es = match keyIdx e.key (es.map Ent.key) with
    | some i => es.set i e
    | none => es ++ [e] := by
  induction es with
  | nil => rfl
  | cons x es ih =>
    simp only [assign, List.map_cons, keyIdx]
    split
    · rfl
    · rw [ih]; cases keyIdx e.key (es.map Ent.key) <;> rfl

theorem hassign_keyIdx (e : HEnt) (es : List HEnt) : hassign e es = match keyIdx e.key (es.map HEnt.key) with
    | some i => es.set i e
    | none => es ++ [e] := by
  induction es with
  | nil => rfl
  | cons x es ih =>
    simp only [hassign, List.map_cons, keyIdx]
    split
    · rfl
    · rw [ih]; cases keyIdx e.key (es.map HEnt.key) <;> rfl

theorem erase_keyIdx (k : Bytes) (es : List Ent) : erase k es = match keyIdx k (es.map Ent.key) with
    | some i => es.eraseIdx i
    | none => es := by
  induction es with
  | nil => rfl
  | cons x es ih =>
    simp only [erase, List.map_cons, keyIdx]
    split
    · rfl
    · rw [ih]; cases keyIdx k (es.map Ent.key) <;> rfl

theorem herase_keyIdx (k : Bytes) (es : List HEnt) : herase k es = match keyIdx k (es.map HEnt.key) with
    | some i => es.eraseIdx i
    | none => es := by
  induction es with
  | nil => rfl
  | cons x es ih =>
    simp only [herase, List.map_cons, keyIdx]
    split
    · rfl
    · rw [ih]; cases keyIdx k (es.map HEnt.key) <;> rfl

theorem putKey_keyIdx (k : Bytes) (c : V) (es : List Ent) : putKey k c es = match keyIdx k (es.map Ent.key) with
    | some i => match es[i]? with
      | some e => es.set i ⟨e.key, e.id, c⟩
      | none => es
    | none => es := by
  induction es with
  | nil => rfl
  | cons x es ih =>
    simp only [putKey, List.map_cons, keyIdx]
    split
    · rfl
    · rw [ih]
      cases keyIdx k (es.map Ent.key) with
      | none => rfl
      | some i =>
        simp only [Option.map_some, List.getElem?_cons_succ]
        cases es[i]? <;> rfl

theorem keyIdx_lt {k : Bytes} : ∀ {ks : List Bytes} {i}, keyIdx k ks = some i → i < ks.length := by
  intro ks
  induction ks with
  | nil => intro i h; cases h
  | cons x xs ih =>
    intro i h
    simp only [keyIdx] at h
    split at h
    · cases h; simp
    · cases hk : keyIdx k xs with
      | none => rw [hk] at h; cases h
      | some j => rw [hk] at h; cases h; have := ih hk; simp; omega

theorem keyIdx_get {k : Bytes} : ∀ {ks : List Bytes} {i}, keyIdx k ks = some i → ks[i]? = some k := by
  intro ks
  induction ks with
  | nil => intro i h; cases h
  | cons x xs ih =>
    intro i h
    simp only [keyIdx] at h
    split at h
    · rename_i hx; cases h; simp [hx]
    · cases hk : keyIdx k xs with
      | none => rw [hk] at h; cases h
      | some j => rw [hk] at h; cases h; simpa using ih hk

theorem hlookup_mem {k : Bytes} {kvs : List HEnt} {e : HEnt} (h : hlookup k kvs = some e) : e ∈ kvs ∧ e.key = k := by
  induction kvs with
  | nil => cases h
  | cons x xs ih =>
    simp only [hlookup] at h
    split at h
    · cases h; exact ⟨List.mem_cons_self .., by assumption⟩
    · exact ⟨List.mem_cons_of_mem _ (ih h).1, (ih h).2⟩

/-- keys and ids agree -/
def SameKeys (kvs : List HEnt) (es : List Ent) : Prop := kvs.map (fun e => (e.key, e.id)) = es.map (fun e => (e.key, e.id))

theorem SameKeys.keys {kvs es} (h : SameKeys kvs es) : kvs.map HEnt.key = es.map Ent.key := by
  have := congrArg (List.map Prod.fst) h
  simpa [Function.comp_def] using this

theorem SameKeys.get {kvs es} (h : SameKeys kvs es) (i : Nat) : kvs[i]?.map (fun e => (e.key, e.id)) = es[i]?.map (fun e => (e.key, e.id)) := by
  have := congrArg (·[i]?) h
  simpa using this

theorem lookup_congr {es es' : List Ent} (h : es.map Ent.key = es'.map Ent.key) (k : Bytes) : (lookup k es).isSome = (lookup k es').isSome := by
  rw [lookup_keyIdx, lookup_keyIdx, h]
  cases hk : keyIdx k (es'.map Ent.key) with
  | none => rfl
  | some i =>
    have h1 := keyIdx_lt hk
    have h2 : i < es.length := by have := congrArg List.length h; simp at this h1; omega
    simp only [List.length_map] at h1
    simp [h1, h2]

theorem initCaseless_congr (E : Env) {es es' : List Ent} (h : es.map Ent.key = es'.map Ent.key) (low : Low) : initCaseless E es low = initCaseless E es' low := by
  unfold initCaseless
  cases low with
  | some m => rfl
  | none =>
    have : ∀ (es : List Ent) m, es.foldl (fun m e => lowAdd (E.toLower e.key) e.key m) m = (es.map Ent.key).foldl (fun m k => lowAdd (E.toLower k) k m) m := by
      intro es; induction es with
      | nil => intro m; rfl
      | cons e es ih => intro m; simp [ih]
    simp only [this, h]

theorem firstPresent_congr {es es' : List Ent} (h : es.map Ent.key = es'.map Ent.key) (ks : List Bytes) : firstPresent es ks = firstPresent es' ks := by
  induction ks with
  | nil => rfl
  | cons k ks ih => simp only [firstPresent, lookup_congr h, ih]

theorem findKey_congr (E : Env) (cl : Bool) {es es' : List Ent} (h : es.map Ent.key = es'.map Ent.key) (low : Low) (k : Bytes) :
    findKey E cl es low k = findKey E cl es' low k := by
  unfold findKey
  rw [lookup_congr h, initCaseless_congr E h]
  simp only [firstPresent_congr h]

theorem keysOf_keys (kvs : List HEnt) : (keysOf kvs).map Ent.key = kvs.map HEnt.key := by
  simp [keysOf, Function.comp_def]

theorem findKey_keysOf (E : Env) (cl : Bool) {kvs : List HEnt} {es : List Ent} (h : SameKeys kvs es) (low : Low) (k : Bytes) :
    findKey E cl (keysOf kvs) low k = findKey E cl es low k :=
  findKey_congr E cl (by rw [keysOf_keys, h.keys]) low k

theorem firstPresent_isSome {es : List Ent} {ks : List Bytes} {k : Bytes} (h : firstPresent es ks = some k) : (lookup k es).isSome = true := by
  induction ks with
  | nil => cases h
  | cons x ks ih =>
    simp only [firstPresent] at h
    split at h
    · cases h; assumption
    · exact ih h

theorem findKey_some {E : Env} {cl : Bool} {es : List Ent} {low low' : Low} {key k : Bytes} (h : findKey E cl es low key = (low', some k)) :
    (lookup k es).isSome = true := by
  unfold findKey at h
  split at h
  · cases h; assumption
  · split at h
    · cases h
    · simp only at h
      split at h
      · cases h
      · injection h with h1 h2; exact firstPresent_isSome h2

/-! ## inversion -/

theorem shows_none {h : Heap} {v F} (hp : Hangs h none v F) : v = .nilp ∧ F = [] := by cases hp; exact ⟨rfl, rfl⟩

theorem shows_some {h : Heap} {a : Nat} {v F} (hp : Hangs h (some a) v F) : ∃ c G, F = a :: G ∧ h[a]? = some c ∧ SameShape c v ∧ HangsL h (kids c) (treeKids v) G := by
  cases hp with | node _ c _ G h1 h2 h3 => exact ⟨c, G, rfl, h1, h2, h3⟩

theorem shows_nilp {h : Heap} {p F} (hp : Hangs h p .nilp F) : p = none ∧ F = [] := by
  cases hp with
  | nil => exact ⟨rfl, rfl⟩
  | node a c v F h1 h2 h3 => cases c <;> exact h2.elim

theorem shows_arr {h : Heap} {p xs F} (hp : Hangs h p (.arr xs) F) : ∃ a ps G, p = some a ∧ F = a :: G ∧ h[a]? = some (.arr ps) ∧ HangsL h ps xs G := by
  cases hp with
  | node a c v G h1 h2 h3 =>
    cases c <;> try exact h2.elim
    rename_i ps
    exact ⟨a, ps, G, rfl, rfl, h1, h3⟩

theorem shows_obj {h : Heap} {p n es low F} (hp : Hangs h p (.obj n es low) F) : ∃ a kvs G, p = some a ∧ F = a :: G ∧ h[a]? = some (.obj n kvs low) ∧
    SameKeys kvs es ∧ HangsL h (kvs.map HEnt.v) (es.map Ent.v) G := by
  cases hp with
  | node a c v G h1 h2 h3 =>
    cases c <;> try exact h2.elim
    rename_i m kvs low'
    obtain ⟨rfl, rfl, h4⟩ := h2
    exact ⟨a, kvs, G, rfl, rfl, h1, h4, h3⟩

theorem shows_mk_arr {h : Heap} {a : Nat} {ps xs G} (h1 : h[a]? = some (.arr ps)) (h2 : HangsL h ps xs G) : Hangs h (some a) (.arr xs) (a :: G) :=
  .node a _ (.arr xs) G h1 trivial h2

theorem shows_mk_obj {h : Heap} {a : Nat} {n kvs low es G} (h1 : h[a]? = some (.obj n kvs low)) (h2 : SameKeys kvs es) (h3 : HangsL h (kvs.map HEnt.v) (es.map Ent.v) G) :
    Hangs h (some a) (.obj n es low) (a :: G) :=
  .node a _ (.obj n es low) G h1 ⟨rfl, rfl, h2⟩ h3

/-- uninitialised in the heap and in the tree -/
theorem shows_uninit {h : Heap} {p v F} (hp : Hangs h p v F) : h.uninit p = v.uninit := by
  cases hp with
  | nil => rfl
  | node a c v G h1 h2 h3 =>
    simp only [Heap.uninit, h1]
    cases c <;> cases v <;> first | rfl | exact h2.elim

theorem ents_ext {es fs : List Ent} (h1 : es.map (fun e => (e.key, e.id)) = fs.map (fun e => (e.key, e.id))) (h2 : es.map Ent.v = fs.map Ent.v) : es = fs := by
  apply List.ext_getElem?
  intro i
  have e1 := congrArg (·[i]?) h1
  have e2 := congrArg (·[i]?) h2
  simp only [List.getElem?_map] at e1 e2
  match ha : es[i]?, hb : fs[i]? with
  | none, none => rfl
  | none, some y => rw [ha, hb] at e1; cases e1
  | some x, none => rw [ha, hb] at e1; cases e1
  | some x, some y =>
    rw [ha, hb] at e1 e2
    cases x; cases y
    simp at e1 e2
    simp [e1, e2]

mutual
/-- a pointer shows one tree only -/
theorem shows_det {h : Heap} : ∀ {p v F w G}, Hangs h p v F → Hangs h p w G → v = w ∧ F = G
  | _, _, _, _, _, .nil, hq => by obtain ⟨rfl, rfl⟩ := shows_none hq; exact ⟨rfl, rfl⟩
  | _, _, _, w, _, .node a c v F h1 h2 h3, hq => by
    obtain ⟨c', G, rfl, h1', h2', h3'⟩ := shows_some hq
    rw [h1] at h1'; cases h1'
    obtain ⟨hk, rfl⟩ := showsL_det h3 h3'
    refine ⟨?_, rfl⟩
    cases c <;> cases v <;> try exact h2.elim
    all_goals (cases w <;> try exact h2'.elim)
    all_goals simp only [SameShape] at h2 h2'
    · rfl
    · rw [← h2, ← h2']
    · rw [← h2.1, ← h2.2, ← h2'.1, ← h2'.2]
    · rw [← h2, ← h2']
    · rfl
    · simp only [treeKids] at hk; rw [hk]
    · obtain ⟨rfl, rfl, h4⟩ := h2
      obtain ⟨rfl, rfl, h4'⟩ := h2'
      congr 1
      rw [h4] at h4'
      simp only [treeKids] at hk
      exact ents_ext h4' hk
theorem showsL_det {h : Heap} : ∀ {ps vs F ws G}, HangsL h ps vs F → HangsL h ps ws G → vs = ws ∧ F = G
  | _, _, _, _, _, .nil, hq => by cases hq; exact ⟨rfl, rfl⟩
  | _, _, _, _, _, .cons p v F ps vs G hp hps, hq => by
    cases hq with
    | cons _ w F' _ ws G' hq hqs =>
      obtain ⟨rfl, rfl⟩ := shows_det hp hq
      obtain ⟨rfl, rfl⟩ := showsL_det hps hqs
      exact ⟨rfl, rfl⟩
end

end JV
