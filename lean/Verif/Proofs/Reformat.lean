import Verif.Spec.Reformat
import Verif.Props.Order
/-! Parsed documents written in their own order. -/
namespace JV
open Spec

variable {E : Env} {S : SortFn} {o : Opt} {T : Escaper}

/-- the members of a list of pairs, as Marshal writes them -/
def pairMems (f : V → Doc) (esc : Bytes → Bytes) : Bool → List (Bytes × V) → List DMem
  | _, [] => []
  | c, p :: l => ⟨c, esc p.1, f p.2⟩ :: pairMems f esc true l

theorem docMems_pairs (ho : o.omitNull = false) (f : V → Doc) (par : Option ParentInfo) : ∀ (es : List Ent) (fw : Bool),
    (∀ e ∈ es, ∀ p, doc E S o T e.v p = f e.v) →
    docMems o T par fw (es.map fun e => (e, doc E S o T e.v)) = pairMems f (escText T) fw (es.map fun e => (e.key, e.v))
  | [], _, _ => rfl
  | e :: es, fw, h => by
    simp only [List.map_cons, docMems, ho, Bool.and_false, Bool.false_eq_true, if_false, pairMems]
    rw [h e (by simp), docMems_pairs ho f par es true fun e' he => h e' (by simp [he])]

theorem uniq_keys : ∀ ms : List Mem, ∀ k, k ∈ (uniqM ms).map Mem.key ↔ k ∈ ms.map Mem.key
  | [], k => by simp [uniqM]
  | ⟨k', v⟩ :: ms, k => by
    rw [uniqM]
    split
    · rename_i h
      rw [uniq_keys ms, List.map_cons, List.mem_cons]
      exact ⟨.inr, fun h' => h'.elim (fun h' => by rw [h']; exact h) id⟩
    · simp only [List.map_cons, List.mem_cons, uniq_keys ms, Mem.key]

/-- the order of setting is the order of the text -/
theorem lastOnes_uniq (f : V → Doc) (esc : Bytes → Bytes) : ∀ (ms : List Mem) (fw : Bool), (∀ m ∈ ms, f (toV E m.v) = m.v.uniq.doc esc) →
    pairMems f esc fw (lastOnes ((ms.map Mem.key).zip (ms.map fun m => toV E m.v))) = docM esc fw (uniqM ms)
  | [], fw, _ => by simp [lastOnes, pairMems, uniqM, docM]
  | ⟨k, v⟩ :: ms, fw, h => by
    have hk : ((ms.map Mem.key).zip (ms.map fun m => toV E m.v)).map Prod.fst = ms.map Mem.key := by
      rw [List.map_fst_zip]; simp
    have ih := fun fw => lastOnes_uniq f esc ms fw fun m hm => h m (by simp [hm])
    have hz : lastOnes (((⟨k, v⟩ :: ms : List Mem).map Mem.key).zip ((⟨k, v⟩ :: ms : List Mem).map fun m => toV E m.v)) =
        if k ∈ ms.map Mem.key then lastOnes ((ms.map Mem.key).zip (ms.map fun m => toV E m.v))
        else (k, toV E v) :: lastOnes ((ms.map Mem.key).zip (ms.map fun m => toV E m.v)) := by
      rw [List.map_cons, List.map_cons, List.zip_cons_cons, lastOnes, hk]; rfl
    have hh : f (toV E v) = v.uniq.doc esc := h ⟨k, v⟩ (by simp)
    rw [hz, uniqM]
    by_cases hm : k ∈ ms.map Mem.key
    · rw [if_pos hm, if_pos hm]; exact ih fw
    · rw [if_neg hm, if_neg hm, pairMems, docM, ih true, hh]

theorem obj_order (hS : GoodSort S) (ho : orderOf o = .bySet) (par : Option ParentInfo) (ms : List Mem) (hl : ms.length < 2 ^ 32) :
    (sorted S o par (toVM E ms {}).kvs).map (fun e => (e.key, e.v)) = lastOnes ((ms.map Mem.key).zip (ms.map fun m => toV E m.v)) := by
  have hv : toV E (.obj ms) = ((ms.map Mem.key).zip (ms.map fun m => toV E m.v)).foldl (fun v p => ObjOp.run E v (.set p.1 p.2)) newObject := by
    simp only [toV]; exact toVM_sets E ms {}
  have hr := objRun_foldl E ((ms.map Mem.key).zip (ms.map fun m => toV E m.v)) newObject
  rw [← hv] at hr
  have hn : (keys (toVM E ms {}).kvs).Nodup := toVM_nodup E ms {} .nil
  obtain ⟨n, kvs, low, es, he, h1, h2⟩ := objRun_seq hr 0 [] none [] rfl new_good seqd_new (by rw [setCount_sets]; simpa using hl)
  rw [toV] at he
  cases he
  rw [sorted_bySet hS ho hn h1]
  have := seqRun_sets _ _ _ ?_ h2
  · rw [show pairs [] = [] from rfl, List.filter_nil, List.nil_append] at this
    exact this
  · intro p hp
    obtain ⟨m, -, hm⟩ := List.mem_map.1 (List.of_mem_zip hp).2
    rw [← hm]; exact toV_init E _

theorem lastOnes_mem {p : Bytes × V} : ∀ {l : List (Bytes × V)}, p ∈ lastOnes l → p ∈ l
  | [], h => by simp [lastOnes] at h
  | q :: l, h => by
    unfold lastOnes at h
    split at h
    · exact .tail _ (lastOnes_mem h)
    · rcases List.mem_cons.1 h with rfl | h
      · simp
      · exact .tail _ (lastOnes_mem h)

theorem uniqM_nil {ms : List Mem} (h : uniqM ms = []) : ms = [] := by
  cases ms with
  | nil => rfl
  | cons m ms =>
    have := (uniq_keys (m :: ms) m.key).2 (by simp)
    rw [h] at this
    cases this

theorem toVM_nil {ms : List Mem} (h : (toVM E ms {}).kvs = []) : ms = [] := by
  cases ms with
  | nil => rfl
  | cons m ms =>
    have h1 := toVM_lookup E (m :: ms) {} m.key
    rw [h] at h1
    cases hl : lastOf m.key (m :: ms) with
    | some j => rw [hl] at h1; obtain ⟨i, hi⟩ := h1; cases hi
    | none =>
      obtain ⟨k, v⟩ := m
      unfold lastOf at hl
      split at hl
      · cases hl
      · simp [Mem.key] at hl

theorem docElems_docL (v : V) (esc : Bytes → Bytes) : ∀ (xs : List J) (i : Nat) (par : Option ParentInfo),
    (∀ x ∈ xs, ∀ p, doc E S o T (toV E x) p = x.uniq.doc esc) → docElems E S o T v (toVL E xs) i par = docL esc (uniqL xs)
  | [], _, _, _ => by simp [toVL, docElems, uniqL, docL]
  | x :: xs, i, par, h => by
    simp only [toVL, docElems, uniqL, docL, h x (by simp)]
    rw [docElems_docL v esc xs _ _ fun y hy => h y (by simp [hy])]

theorem NarrowL_mem {xs : List J} (h : NarrowL xs) {x : J} (hx : x ∈ xs) : x.Narrow := by
  induction xs with
  | nil => cases hx
  | cons y xs ih =>
    rcases List.mem_cons.1 hx with rfl | hx
    · exact h.1
    · exact ih h.2 hx

theorem NarrowM_mem {ms : List Mem} (h : NarrowM ms) {m : Mem} (hm : m ∈ ms) : m.v.Narrow := by
  induction ms with
  | nil => cases hm
  | cons y ms ih =>
    cases y
    rcases List.mem_cons.1 hm with rfl | hm
    · exact h.1
    · exact ih h.2 hm

theorem AllNumsL_mem {P : Bytes → Prop} {xs : List J} (h : AllNumsL P xs) {x : J} (hx : x ∈ xs) : x.AllNums P := by
  induction xs with
  | nil => cases hx
  | cons y xs ih =>
    rcases List.mem_cons.1 hx with rfl | hx
    · exact h.1
    · exact ih h.2 hx

theorem AllNumsM_mem {P : Bytes → Prop} {ms : List Mem} (h : AllNumsM P ms) {m : Mem} (hm : m ∈ ms) : m.v.AllNums P := by
  induction ms with
  | nil => cases hm
  | cons y ms ih =>
    cases y
    rcases List.mem_cons.1 hm with rfl | hm
    · exact h.1
    · exact ih h.2 hm

theorem doc_uniq (hS : GoodSort S) (ho : orderOf o = .bySet) (hom : o.omitNull = false) (j : J) (hn : j.Narrow) (ht : j.AllNums (· ≠ [])) (par : Option ParentInfo) :
    doc E S o T (toV E j) par = j.uniq.doc (escText T) := by
  match j with
  | .null => simp only [toV, doc, J.uniq, J.doc]; rfl
  | .bool b => cases b <;> (simp only [toV, doc, J.uniq, J.doc]; rfl)
  | .num t =>
    simp only [toV, doc, J.uniq, J.doc, numText]
    rw [special_src _ ht]
  | .str s => simp only [toV, doc, J.uniq, J.doc]
  | .arr xs =>
    simp only [toV, J.uniq]
    by_cases h0 : xs = []
    · subst h0; simp [toVL, doc, uniqL, J.doc]
    · have ih := docElems_docL (E := E) (S := S) (o := o) (T := T) (.arr (toVL E xs)) (escText T) xs 0 par fun y hy p =>
        have := List.sizeOf_lt_of_mem hy
        doc_uniq hS ho hom y (NarrowL_mem hn hy) (AllNumsL_mem ht hy) p
      conv => rhs; unfold J.doc
      conv => lhs; unfold doc
      rw [if_neg (by simpa [toVL_length] using h0), if_neg (by cases xs <;> simp [uniqL] at h0 ⊢), ih]
  | .obj ms =>
    by_cases h0 : ms = []
    · subst h0; simp [toV, toVM, doc, J.uniq, uniqM, J.doc]
    · simp only [toV, J.uniq]
      have ih : ∀ m ∈ ms, ∀ p, doc E S o T (toV E m.v) p = m.v.uniq.doc (escText T) := fun m hm p =>
        have := mem_sizeOf hm
        doc_uniq hS ho hom m.v (NarrowM_mem hn.2 hm) (AllNumsM_mem ht hm) p
      have hk : (toVM E ms {}).kvs ≠ [] := fun h => h0 (toVM_nil h)
      have hord := obj_order (E := E) hS ho par ms hn.1
      rw [doc_obj _ _ _ _ hk, docMems_pairs hom (fun v => doc E S o T v none), hord, lastOnes_uniq _ _ _ _ fun m hm => ih m hm none]
      · rw [J.doc, if_neg (by simpa using fun h => h0 (uniqM_nil h))]
      · intro e he p
        have hmem : (e.key, e.v) ∈ (sorted S o par (toVM E ms {}).kvs).map (fun e => (e.key, e.v)) := List.mem_map.2 ⟨e, he, rfl⟩
        rw [hord] at hmem
        obtain ⟨m, hm, hmv⟩ := List.mem_map.1 (List.of_mem_zip (lastOnes_mem hmem)).2
        rw [← hmv, ih m hm, ih m hm]
termination_by sizeOf j
decreasing_by all_goals simp_wf <;> omega

/-! ### uniq -/

theorem uniqM_length : ∀ ms : List Mem, (uniqM ms).length ≤ ms.length
  | [] => by simp [uniqM]
  | ⟨k, v⟩ :: ms => by
    have := uniqM_length ms
    rw [uniqM]; split <;> simp only [List.length_cons] <;> omega

mutual
theorem uniq_narrow : ∀ j : J, j.Narrow → j.uniq.Narrow
  | .arr xs, h => by simp only [J.uniq, J.Narrow] at *; exact uniqL_narrow xs h
  | .obj ms, h => by
    simp only [J.uniq, J.Narrow] at *
    exact ⟨Nat.lt_of_le_of_lt (uniqM_length ms) h.1, uniqM_narrow ms h.2⟩
  | .null, h => by simpa [J.uniq] using h
  | .bool _, h => by simpa [J.uniq] using h
  | .num _, h => by simpa [J.uniq] using h
  | .str _, h => by simpa [J.uniq] using h
theorem uniqL_narrow : ∀ xs : List J, NarrowL xs → NarrowL (uniqL xs)
  | [], _ => by simp [uniqL, NarrowL]
  | x :: xs, h => by simp only [uniqL, NarrowL] at *; exact ⟨uniq_narrow x h.1, uniqL_narrow xs h.2⟩
theorem uniqM_narrow : ∀ ms : List Mem, NarrowM ms → NarrowM (uniqM ms)
  | [], _ => by simp [uniqM, NarrowM]
  | ⟨k, v⟩ :: ms, h => by
    rw [NarrowM] at h
    rw [uniqM]; split
    · exact uniqM_narrow ms h.2
    · rw [NarrowM]; exact ⟨uniq_narrow v h.1, uniqM_narrow ms h.2⟩
end

mutual
theorem uniq_nums {P : Bytes → Prop} : ∀ j : J, j.AllNums P → j.uniq.AllNums P
  | .arr xs, h => by simp only [J.uniq, J.AllNums] at *; exact uniqL_nums xs h
  | .obj ms, h => by simp only [J.uniq, J.AllNums] at *; exact uniqM_nums ms h
  | .null, h => by simpa [J.uniq] using h
  | .bool _, h => by simpa [J.uniq] using h
  | .num _, h => by simpa [J.uniq] using h
  | .str _, h => by simpa [J.uniq] using h
theorem uniqL_nums {P : Bytes → Prop} : ∀ xs : List J, AllNumsL P xs → AllNumsL P (uniqL xs)
  | [], _ => by simp [uniqL, AllNumsL]
  | x :: xs, h => by simp only [uniqL, AllNumsL] at *; exact ⟨uniq_nums x h.1, uniqL_nums xs h.2⟩
theorem uniqM_nums {P : Bytes → Prop} : ∀ ms : List Mem, AllNumsM P ms → AllNumsM P (uniqM ms)
  | [], _ => by simp [uniqM, AllNumsM]
  | ⟨k, v⟩ :: ms, h => by
    rw [AllNumsM] at h
    rw [uniqM]; split
    · exact uniqM_nums ms h.2
    · rw [AllNumsM]; exact ⟨uniq_nums v h.1, uniqM_nums ms h.2⟩
end

mutual
theorem uniq_texts {P : Bytes → Prop} : ∀ j : J, j.Texts P → j.uniq.Texts P
  | .arr xs, h => by simp only [J.uniq, J.Texts] at *; exact uniqL_texts xs h
  | .obj ms, h => by simp only [J.uniq, J.Texts] at *; exact uniqM_texts ms h
  | .null, h => by simpa [J.uniq] using h
  | .bool _, h => by simpa [J.uniq] using h
  | .num _, h => by simpa [J.uniq] using h
  | .str _, h => by simpa [J.uniq] using h
theorem uniqL_texts {P : Bytes → Prop} : ∀ xs : List J, TextsL P xs → TextsL P (uniqL xs)
  | [], _ => by simp [uniqL, TextsL]
  | x :: xs, h => by simp only [uniqL, TextsL] at *; exact ⟨uniq_texts x h.1, uniqL_texts xs h.2⟩
theorem uniqM_texts {P : Bytes → Prop} : ∀ ms : List Mem, TextsM P ms → TextsM P (uniqM ms)
  | [], _ => by simp [uniqM, TextsM]
  | ⟨k, v⟩ :: ms, h => by
    rw [TextsM] at h
    rw [uniqM]; split
    · exact uniqM_texts ms h.2.2
    · rw [TextsM]; exact ⟨h.1, uniq_texts v h.2.1, uniqM_texts ms h.2.2⟩
end

mutual
theorem uniq_idem : ∀ j : J, j.uniq.uniq = j.uniq
  | .arr xs => by simp only [J.uniq, uniqL_idem xs]
  | .obj ms => by simp only [J.uniq, uniqM_idem ms]
  | .null => rfl
  | .bool _ => rfl
  | .num _ => rfl
  | .str _ => rfl
theorem uniqL_idem : ∀ xs : List J, uniqL (uniqL xs) = uniqL xs
  | [] => rfl
  | x :: xs => by simp only [uniqL, uniq_idem x, uniqL_idem xs]
theorem uniqM_idem : ∀ ms : List Mem, uniqM (uniqM ms) = uniqM ms
  | [] => rfl
  | ⟨k, v⟩ :: ms => by
    rw [uniqM]; split
    · exact uniqM_idem ms
    · rename_i h
      rw [uniqM, if_neg (by rw [uniq_keys]; exact h), uniq_idem v, uniqM_idem ms]
end

/-! ### what is written is read again as the same document -/

theorem docM_get (esc : Bytes → Bytes) : ∀ (ms : List Mem) (c : Bool) (i : Nat) (d : DMem) (m : Mem), (docM esc c ms)[i]? = some d → ms[i]? = some m →
    DMem.key d = esc m.key ∧ DMem.v d = m.v.doc esc
  | [], _, _, _, _, _, h => by simp at h
  | ⟨k, v⟩ :: ms, c, 0, d, m, h, hm => by
    simp only [docM, List.getElem?_cons_zero, Option.some.injEq] at h hm
    subst h; subst hm; exact ⟨rfl, rfl⟩
  | ⟨k, v⟩ :: ms, c, i + 1, d, m, h, hm => by
    simp only [docM, List.getElem?_cons_succ] at h hm
    exact docM_get esc ms true i d m h hm

theorem docM_length (esc : Bytes → Bytes) : ∀ (ms : List Mem) (c : Bool), (docM esc c ms).length = ms.length
  | [], _ => by simp [docM]
  | ⟨k, v⟩ :: ms, c => by simp [docM, docM_length esc ms true]

theorem docL_map (esc : Bytes → Bytes) : ∀ xs : List J, docL esc xs = xs.map (J.doc esc)
  | [] => by simp [docL]
  | x :: xs => by simp [docL, docL_map esc xs]

theorem TextsL_mem {P : Bytes → Prop} {xs : List J} (h : TextsL P xs) {x : J} (hx : x ∈ xs) : x.Texts P := by
  induction xs with
  | nil => cases hx
  | cons y xs ih =>
    rcases List.mem_cons.1 hx with rfl | hx
    · exact h.1
    · exact ih h.2 hx

theorem TextsM_mem {P : Bytes → Prop} {ms : List Mem} (h : TextsM P ms) {m : Mem} (hm : m ∈ ms) : P m.key ∧ m.v.Texts P := by
  induction ms with
  | nil => cases hm
  | cons y ms ih =>
    cases y
    rcases List.mem_cons.1 hm with rfl | hm
    · exact ⟨h.1, h.2.1⟩
    · exact ih h.2.2 hm

theorem doc_spells {num : Bytes → Prop} {str : Bytes → Bytes → Prop} {C : List DMem → Prop} {esc : Bytes → Bytes} {P : Bytes → Prop} (hs : ∀ s, P s → str (esc s) s)
    (hC : ∀ ms, C (docM esc false ms)) (j : J) (hn : j.AllNums num) (ht : j.Texts P) : DocJ num str C (j.doc esc) j := by
  match j with
  | .null => simp only [J.doc]; exact .null
  | .bool true => simp only [J.doc]; exact .bool true
  | .bool false => simp only [J.doc]; exact .bool false
  | .num t => simp only [J.doc]; exact .num t hn
  | .str s => simp only [J.doc]; exact .str _ _ (hs s ht)
  | .arr xs =>
    unfold J.doc
    by_cases h0 : xs = []
    · subst h0; exact .arrNil
    · rw [if_neg (by simpa using h0), docL_map]
      refine .arr _ _ (by simpa using h0) (by simp) ?_
      intro i d x hd hx
      rw [List.getElem?_map, hx] at hd
      cases hd
      have hm := List.mem_of_getElem? hx
      have := List.sizeOf_lt_of_mem hm
      exact doc_spells hs hC x (AllNumsL_mem hn hm) (TextsL_mem ht hm)
  | .obj ms =>
    unfold J.doc
    by_cases h0 : ms = []
    · subst h0; exact .objNil
    · rw [if_neg (by simpa using h0)]
      refine .obj _ _ (hC ms) (by rw [docM_length]) ?_ ?_
      · intro i d m hd hm
        rw [(docM_get esc ms _ i d m hd hm).1]
        exact hs _ (TextsM_mem ht (List.mem_of_getElem? hm)).1
      · intro i d m hd hm
        rw [(docM_get esc ms _ i d m hd hm).2]
        have hmm := List.mem_of_getElem? hm
        have := mem_sizeOf hmm
        exact doc_spells hs hC m.v (AllNumsM_mem hn hmm) (TextsM_mem ht hmm).2
termination_by sizeOf j
decreasing_by all_goals simp_wf <;> omega

/-! ### through the API -/

theorem escapedBy_of (opts : List MOpt) (s : Bytes) :
    Escaped (lastSet setsUTF8 opts false) (lastSet setsHTML opts true) (lastSet setsSlash opts true) s (escText (escOf emptyOptions opts) s) := by
  have h1 : escHas (opts.foldl MOpt.mergeTo emptyOptions).escProps escapeUTF8 = lastSet setsUTF8 opts false := set_utf8 opts
  have h2 : (!escHas (opts.foldl MOpt.mergeTo emptyOptions).escProps escapeWithoutHTML) = lastSet setsHTML opts true := set_html opts
  have h3 : (!escHas (opts.foldl MOpt.mergeTo emptyOptions).escProps escapeIgnoreSlash) = lastSet setsSlash opts true := set_slash opts
  refine ⟨_, Decodes_runes s, ?_⟩
  rw [← h1, ← h2, ← h3]
  exact escText_spec _ (Decodes_runes s)

theorem escapedBy_eq {opts : List MOpt} {esc : Bytes → Bytes}
    (h : ∀ s, Escaped (lastSet setsUTF8 opts false) (lastSet setsHTML opts true) (lastSet setsSlash opts true) s (esc s)) : esc = escText (escOf emptyOptions opts) := by
  funext s
  obtain ⟨rs, h1, h2⟩ := h s
  obtain ⟨rs', h1', h2'⟩ := escapedBy_of opts s
  rw [h2, h2', h1.unique _ h1']

theorem reads_toV {s : Bytes} {j : J} (h : LText (Reads E) s j) : unmarshal E s = .ok (toV E j) := by
  obtain ⟨b1, t, b2, h1, h2, h3, h4⟩ := h
  exact (unmarshal_iff E s _).2 ⟨j, ⟨b1, t, b2, h1, h2, lval_mono (fun _ => reads_numTok) h3, h4⟩, rfl⟩

theorem ltext_nums {num : Bytes → Prop} {s : Bytes} {j : J} (h : LText num s j) : j.AllNums num := by
  obtain ⟨_, _, _, _, _, h, _⟩ := h; exact lval_nums h

theorem parsed_marshalable {s : Bytes} {v : V} (h : unmarshal E s = .ok v) : Marshalable v := by
  refine ⟨fun l c hc => ?_, noNil_her fun l c hc => (her_unmarshal_solid h l c hc).1, (her_self (her_unmarshal_solid h)).2⟩
  have := her_unmarshal_good h l c hc
  cases c with
  | obj n kvs low => exact this.1
  | _ => trivial

theorem marshal_uniq (hS : GoodSort S) {j : J} {opts : List MOpt} {esc : Bytes → Bytes} {s : Bytes} (hn : j.Narrow) (hN : j.AllNums (Reads E)) (ho : lastSet setsOrder opts .any = .bySet)
    (hom : lastSet setsOmitNull opts false = false)
    (he : ∀ s, Escaped (lastSet setsUTF8 opts false) (lastSet setsHTML opts true) (lastSet setsSlash opts true) s (esc s)) (hu : unmarshal E s = .ok (toV E j)) :
    marshal E S emptyOptions (toV E j) opts = .ok ((j.uniq.doc esc).print (lastSet setsIndent opts none) 0, none) := by
  have hne : j.AllNums (· ≠ []) := AllNums_mono (fun t ht => by
    obtain ⟨⟨c, t', h, -⟩, -⟩ := reads_numTok ht; rw [h]; simp) j hN
  have hN' : errOf (optOf emptyOptions opts) (toV E j) = none := by
    cases j with
    | num t =>
      simp only [toV, errOf]
      rw [special_src]
      exact hne
    | arr xs => rw [toV]; rfl
    | obj ms => rw [toV]; rfl
    | _ => rfl
  rw [marshal_eq _ (parsed_marshalable hu), hN']
  have h1 : (optOf emptyOptions opts).indent = lastSet setsIndent opts none := set_indent opts
  have h2 : (optOf emptyOptions opts).omitNull = false := (opt_field (fun o => o.omitNull) _ merge_omit emptyOptions opts).trans hom
  simp only [textOf]
  rw [h1, doc_uniq hS ((set_order opts).trans ho) h2 j hn hne none, escapedBy_eq he]

end JV
