import Verif.Model.Describe
import Verif.Spec.Describe
import Verif.Spec.Compare
import Verif.Proofs.Strict
/-! Lemmas on String(). -/
namespace JV
open Spec

/-- each part after a comma and a blank -/
def trailing : List Bytes → Bytes
  | [] => []
  | t :: ts => [0x2C, 0x20] ++ t ++ trailing ts

theorem commaed_cons (t : Bytes) (ts : List Bytes) : commaed (t :: ts) = t ++ trailing ts := by
  induction ts generalizing t with
  | nil => simp [commaed, trailing]
  | cons u ts ih => rw [commaed, ih u, trailing]; simp

/-- the parts after `i` others -/
def parts (i : Nat) (ts : List Bytes) : Bytes := if i > 0 then trailing ts else commaed ts

theorem parts_cons (i : Nat) (t : Bytes) (ts : List Bytes) : parts i (t :: ts) = (if i > 0 then [0x2C, 0x20] else []) ++ t ++ parts (i + 1) ts := by
  by_cases h : i > 0
  · simp [parts, h, trailing]
  · simp [parts, h, commaed_cons]

theorem parts_nil (i : Nat) : parts i [] = [] := by simp [parts, trailing, commaed]

mutual
theorem describe_ok (E : Env) : ∀ v : V, ∃ t, describe E v = .ok t ∧ Describes E.fmtFloat v t
  | .nilp => ⟨_, rfl, .nilp⟩
  | .notExist => ⟨_, rfl, .notExist⟩
  | .null => ⟨_, rfl, .null⟩
  | .bool true => ⟨_, rfl, .tru⟩
  | .bool false => ⟨_, rfl, .fls⟩
  | .str s => ⟨_, rfl, .str s⟩
  | .num src n => by
    cases src with
    | nil => exact ⟨_, rfl, .special n⟩
    | cons c src => exact ⟨_, rfl, .text _ n (by simp)⟩
  | .obj n kvs low => by
    obtain ⟨ts, hl, hp, hd⟩ := describeObj_ok E kvs 0 [0x7B]
    exact ⟨_, by rw [describe, hd]; rfl, Describes.obj n kvs kvs low ts (.refl _) hl hp⟩
  | .arr xs => by
    obtain ⟨ts, hl, hp, hd⟩ := describeArr_ok E xs 0 [0x5B]
    exact ⟨_, by rw [describe, hd]; rfl, Describes.arr xs ts hl hp⟩
termination_by structural v => v
theorem describeObj_ok (E : Env) : ∀ (es : List Ent) (i : Nat) (buf : Bytes), ∃ ts, es.length = ts.length ∧
    (∀ (j : Nat) e t, es[j]? = some e → ts[j]? = some t → Describes E.fmtFloat e.v t) ∧
    describeObj E es i buf = .ok (buf ++ parts i ((es.zip ts).map fun p => p.1.key ++ [0x3A, 0x20] ++ p.2))
  | [], i, buf => ⟨[], rfl, by simp, by simp [describeObj, parts_nil]⟩
  | ⟨k, id, v⟩ :: es, i, buf => by
    obtain ⟨t, h1, h2⟩ := describe_ok E v
    obtain ⟨ts, hl, hp, hd⟩ := describeObj_ok E es (i + 1) ((if i > 0 then buf ++ [0x2C, 0x20] else buf) ++ k ++ [0x3A, 0x20] ++ t)
    refine ⟨t :: ts, by simp [hl], ?_, ?_⟩
    · intro j e u he hu
      cases j with
      | zero => simp at he hu; subst he hu; exact h2
      | succ j => exact hp j e u (by simpa using he) (by simpa using hu)
    · rw [describeObj]
      simp only [h1]
      show describeObj E es (i + 1) _ = _
      rw [hd]
      simp only [List.zip_cons_cons, List.map_cons, parts_cons, Ent.key_mk]
      by_cases h : i > 0 <;> simp [h]
termination_by structural es => es
theorem describeArr_ok (E : Env) : ∀ (xs : List V) (i : Nat) (buf : Bytes), ∃ ts, xs.length = ts.length ∧
    (∀ (j : Nat) x t, xs[j]? = some x → ts[j]? = some t → Describes E.fmtFloat x t) ∧
    describeArr E xs i buf = .ok (buf ++ parts i ts)
  | [], i, buf => ⟨[], rfl, by simp, by simp [describeArr, parts_nil]⟩
  | v :: xs, i, buf => by
    obtain ⟨t, h1, h2⟩ := describe_ok E v
    obtain ⟨ts, hl, hp, hd⟩ := describeArr_ok E xs (i + 1) ((if i > 0 then buf ++ [0x2C, 0x20] else buf) ++ t)
    refine ⟨t :: ts, by simp [hl], ?_, ?_⟩
    · intro j e u he hu
      cases j with
      | zero => simp at he hu; subst he hu; exact h2
      | succ j => exact hp j e u (by simpa using he) (by simpa using hu)
    · rw [describeArr]
      simp only [h1]
      show describeArr E xs (i + 1) _ = _
      rw [hd]
      simp only [parts_cons]
      by_cases h : i > 0 <;> simp [h]
termination_by structural xs => xs
end

/-- the loop over an array whose elements have these texts -/
theorem describeArr_texts (E : Env) : ∀ (xs : List V) (ts : List Bytes) (i : Nat) (buf : Bytes), xs.length = ts.length →
    (∀ (j : Nat) x t, xs[j]? = some x → ts[j]? = some t → describe E x = .ok t) → describeArr E xs i buf = .ok (buf ++ parts i ts)
  | [], [], i, buf, _, _ => by simp [describeArr, parts_nil]
  | v :: xs, t :: ts, i, buf, hl, h => by
    have h1 := h 0 v t rfl rfl
    rw [describeArr]
    simp only [h1]
    show describeArr E xs (i + 1) _ = _
    rw [describeArr_texts E xs ts (i + 1) _ (by simpa using hl) fun j x t hx ht => h (j + 1) x t hx ht, parts_cons]
    by_cases h : i > 0 <;> simp [h]

/-- the loop over an object whose members have these texts -/
theorem describeObj_texts (E : Env) : ∀ (es : List Ent) (ts : List Bytes) (i : Nat) (buf : Bytes), es.length = ts.length →
    (∀ (j : Nat) e t, es[j]? = some e → ts[j]? = some t → describe E e.v = .ok t) →
    describeObj E es i buf = .ok (buf ++ parts i ((es.zip ts).map fun p => p.1.key ++ [0x3A, 0x20] ++ p.2))
  | [], [], i, buf, _, _ => by simp [describeObj, parts_nil]
  | ⟨k, id, v⟩ :: es, t :: ts, i, buf, hl, h => by
    have h1 : describe E v = .ok t := h 0 ⟨k, id, v⟩ t rfl rfl
    rw [describeObj]
    simp only [h1]
    show describeObj E es (i + 1) _ = _
    rw [describeObj_texts E es ts (i + 1) _ (by simpa using hl) fun j x t hx ht => h (j + 1) x t hx ht]
    simp only [List.zip_cons_cons, List.map_cons, parts_cons, Ent.key_mk]
    by_cases h : i > 0 <;> simp [h]

/-- a list of witnesses, one for each position -/
theorem choose_list {α β : Type} (P : α → β → Prop) : ∀ xs : List α, (∀ x ∈ xs, ∃ y, P x y) →
    ∃ ys : List β, xs.length = ys.length ∧ ∀ (i : Nat) x y, xs[i]? = some x → ys[i]? = some y → P x y
  | [], _ => ⟨[], rfl, by simp⟩
  | x :: xs, h => by
    obtain ⟨y, hy⟩ := h x (by simp)
    obtain ⟨ys, hl, hp⟩ := choose_list P xs fun x hx => h x (by simp [hx])
    refine ⟨y :: ys, by simp [hl], ?_⟩
    intro i a b ha hb
    cases i with
    | zero => simp at ha hb; subst ha hb; exact hy
    | succ i => exact hp i a b (by simpa using ha) (by simpa using hb)

theorem zip_same {α β γ : Type} (f : α → γ) : ∀ (es fs : List α) (ts : List β), es.length = fs.length → 
    (∀ (i : Nat) e f', es[i]? = some e → fs[i]? = some f' → f e = f f') →
    (es.zip ts).map (fun p => (f p.1, p.2)) = (fs.zip ts).map (fun p => (f p.1, p.2))
  | [], [], _, _, _ => rfl
  | e :: es, g :: fs, [], _, _ => rfl
  | e :: es, g :: fs, t :: ts, hl, h => by
    have := h 0 e g rfl rfl
    simp only [List.zip_cons_cons, List.map_cons, this]
    rw [zip_same f es fs ts (by simpa using hl) fun i a b ha hb => h (i + 1) a b ha hb]

/-- every description is what String() gives for some order of the members -/
theorem describes_shuffled (E : Env) {v : V} {t : Bytes} (h : Describes E.fmtFloat v t) : ∃ w, Shuffled v w ∧ describe E w = .ok t := by
  induction h with
  | nilp => exact ⟨_, .refl _, rfl⟩
  | notExist => exact ⟨_, .refl _, rfl⟩
  | null => exact ⟨_, .refl _, rfl⟩
  | tru => exact ⟨_, .refl _, rfl⟩
  | fls => exact ⟨_, .refl _, rfl⟩
  | str s => exact ⟨_, .refl _, rfl⟩
  | text src n hs => exact ⟨_, .refl _, by rw [describe, if_pos (List.length_pos_iff.2 hs)]⟩
  | special n => exact ⟨_, .refl _, rfl⟩
  | arr xs ts hl _ ih =>
    obtain ⟨ys, hy, hp⟩ := choose_list (fun (i : Nat) w => ∀ x t, xs[i]? = some x → ts[i]? = some t → Shuffled x w ∧ describe E w = .ok t)
      (List.range xs.length) fun i hi => by
        have hi : i < xs.length := by simpa using hi
        obtain ⟨w, h1, h2⟩ := ih i xs[i] ts[i] (by simp [hi]) (by simp [hl ▸ hi])
        exact ⟨w, fun x t hx ht => by simp [hi, hl ▸ hi] at hx ht; subst hx ht; exact ⟨h1, h2⟩⟩
    have hy' : xs.length = ys.length := by simpa using hy
    have key : ∀ (i : Nat) x t w, xs[i]? = some x → ts[i]? = some t → ys[i]? = some w → Shuffled x w ∧ describe E w = .ok t :=
      fun i x t w hx ht hw => hp i i w (by have := (List.getElem?_eq_some_iff.1 hx).1; simp [this]) hw x t hx ht
    refine ⟨.arr ys, .arr xs ys hy' fun i x y hx hy => ?_, ?_⟩
    · have hi := (List.getElem?_eq_some_iff.1 hx).1
      exact (key i x ts[i] y hx (by simp [hl ▸ hi]) hy).1
    · rw [describe, describeArr_texts E ys ts 0 _ (by omega) fun i w t hw ht => ?_]
      · rfl
      · have hi := (List.getElem?_eq_some_iff.1 ht).1
        exact (key i xs[i] t w (by simp [hl ▸ hi]) ht hw).2
  | obj n kvs es low ts hperm hl _ ih =>
    obtain ⟨fs, hy, hp⟩ := choose_list (fun (i : Nat) (f : Ent) => ∀ e t, es[i]? = some e → ts[i]? = some t →
        e.key = f.key ∧ e.id = f.id ∧ Shuffled e.v f.v ∧ describe E f.v = .ok t)
      (List.range es.length) fun i hi => by
        have hi : i < es.length := by simpa using hi
        obtain ⟨w, h1, h2⟩ := ih i es[i] ts[i] (by simp [hi]) (by simp [hl ▸ hi])
        exact ⟨⟨es[i].key, es[i].id, w⟩, fun x t hx ht => by simp [hi, hl ▸ hi] at hx ht; subst hx ht; exact ⟨rfl, rfl, h1, h2⟩⟩
    have hy' : es.length = fs.length := by simpa using hy
    have key : ∀ (i : Nat) e t f, es[i]? = some e → ts[i]? = some t → fs[i]? = some f →
        e.key = f.key ∧ e.id = f.id ∧ Shuffled e.v f.v ∧ describe E f.v = .ok t :=
      fun i x t w hx ht hw => hp i i w (by have := (List.getElem?_eq_some_iff.1 hx).1; simp [this]) hw x t hx ht
    have keys : ∀ (i : Nat) e f, es[i]? = some e → fs[i]? = some f → e.key = f.key ∧ e.id = f.id ∧ Shuffled e.v f.v := fun i e f he hf => by
      have hi := (List.getElem?_eq_some_iff.1 he).1
      have := key i e ts[i] f he (by simp [hl ▸ hi]) hf
      exact ⟨this.1, this.2.1, this.2.2.1⟩
    refine ⟨.obj n fs low, .obj n kvs es fs low hperm hy' (fun i e f he hf => ⟨(keys i e f he hf).1, (keys i e f he hf).2.1⟩) (fun i e f he hf => (keys i e f he hf).2.2), ?_⟩
    rw [describe, describeObj_texts E fs ts 0 _ (by omega) fun i w t hw ht => ?_]
    · have := zip_same Ent.key es fs ts hy' fun i e f he hf => (keys i e f he hf).1
      have := congrArg (List.map fun p : Bytes × Bytes => p.1 ++ [0x3A, 0x20] ++ p.2) this
      simp only [List.map_map, Function.comp_def] at this
      rw [← this]
      rfl
    · have hi := (List.getElem?_eq_some_iff.1 ht).1
      exact (key i es[i] t w (by simp [hl ▸ hi]) ht hw).2.2.2

/-! ### listings -/

theorem jelems_parts {ts : List Bytes} {js : List J} (t : Bytes) (j : J) (w : Bytes) (hw : Ws w) (h0 : JVal t j) (hl : ts.length = js.length)
    (h : ∀ (i : Nat) t j, ts[i]? = some t → js[i]? = some j → JVal t j) : JElems (w ++ t ++ trailing ts) (j :: js) := by
  induction ts generalizing t j w js with
  | nil =>
    cases js with
    | nil => simpa [trailing] using JElems.one w t [] j hw h0 (by simp [Ws])
    | cons => simp at hl
  | cons u ts ih =>
    cases js with
    | nil => simp at hl
    | cons k js =>
      have := ih u k [0x20] (by simp [Ws]) (h 0 u k rfl rfl) (by simpa using hl) fun i t j ht hj => h (i + 1) t j ht hj
      have := JElems.cons w t [] _ j _ hw h0 (by simp [Ws]) this
      simpa [trailing] using this

theorem allNumsL {P : Bytes → Prop} : ∀ js : List J, (∀ j ∈ js, j.AllNums P) → AllNumsL P js
  | [], _ => trivial
  | j :: js, h => ⟨h j (by simp), allNumsL js fun k hk => h k (by simp [hk])⟩

theorem toVL_at (E : Env) : ∀ (js : List J) (i : Nat), (toVL E js)[i]? = (js[i]?).map (toV E)
  | [], i => by simp [toVL]
  | j :: js, 0 => by simp [toVL]
  | j :: js, i + 1 => by simp [toVL, toVL_at E js i]

theorem toVL_len (E : Env) : ∀ js : List J, (toVL E js).length = js.length
  | [] => rfl
  | j :: js => by simp [toVL, toVL_len E js]

theorem listing_text (E : Env) (val : Bytes → Rat) {v : V} (h : Listing E v) :
    ∃ t j, describe E v = .ok t ∧ JVal t j ∧ j.AllNums (NumOK E) ∧ EqualTo val v (toV E j) := by
  induction h with
  | null => exact ⟨_, .null, rfl, .null, trivial, .null⟩
  | bool b =>
    cases b with
    | true => exact ⟨_, .bool true, rfl, .tru, trivial, .bool _⟩
    | false => exact ⟨_, .bool false, rfl, .fls, trivial, .bool _⟩
  | num src n h1 h2 h3 =>
    have hne : src ≠ [] := by
      rintro rfl
      rcases h1 with ⟨neg, ip, hi, ht⟩ | ⟨neg, ip, fp, ep, hi, _, _, _, ht⟩
      · exact (intPart_digits hi).2.1 (List.append_eq_nil_iff.1 ht.symm).2
      · have := List.append_eq_nil_iff.1 ht.symm
        have := List.append_eq_nil_iff.1 this.1
        exact (intPart_digits hi).2.1 (List.append_eq_nil_iff.1 this.1).2
    exact ⟨src, .num src, by rw [describe, if_pos (List.length_pos_iff.2 hne)], .num src h1,
      ⟨h2.1, fun neg ip hf => ⟨h2.2 neg ip hf, h3 neg ip hf⟩⟩, .num _ _ _ _ rfl⟩
  | arr xs _ ih =>
    obtain ⟨ps, hl, hp⟩ := choose_list (fun x (p : Bytes × J) => describe E x = .ok p.1 ∧ JVal p.1 p.2 ∧ p.2.AllNums (NumOK E) ∧ EqualTo val x (toV E p.2)) xs
      fun x hx => by obtain ⟨t, j, h⟩ := ih x hx; exact ⟨(t, j), h⟩
    have at' : ∀ (i : Nat) p, ps[i]? = some p → ∃ x, xs[i]? = some x ∧ describe E x = .ok p.1 ∧ JVal p.1 p.2 ∧ p.2.AllNums (NumOK E) ∧ EqualTo val x (toV E p.2) :=
      fun i p hpp => by
        have hi := (List.getElem?_eq_some_iff.1 hpp).1
        exact ⟨xs[i], by simp, hp i xs[i] p (by simp) hpp⟩
    have hd : describeArr E xs 0 [0x5B] = .ok ([0x5B] ++ parts 0 (ps.map Prod.fst)) :=
      describeArr_texts E xs _ 0 _ (by simp [hl]) fun i x t hx ht => by
        simp only [List.getElem?_map, Option.map_eq_some_iff] at ht
        obtain ⟨p, hpp, rfl⟩ := ht
        exact (hp i x p hx hpp).1
    refine ⟨0x5B :: parts 0 (ps.map Prod.fst) ++ [0x5D], .arr (ps.map Prod.snd), by rw [describe, hd]; rfl, ?_, ?_, ?_⟩
    · cases ps with
      | nil => exact .arrNil [] (by simp [Ws])
      | cons p ps =>
        rw [List.map_cons, List.map_cons, parts_cons]
        refine .arr _ _ ?_
        have := jelems_parts (ts := ps.map Prod.fst) (js := ps.map Prod.snd) p.1 p.2 [] (by simp [Ws]) (at' 0 p rfl).choose_spec.2.2.1 (by simp) fun i t j ht hj => by
          simp only [List.getElem?_map, Option.map_eq_some_iff] at ht hj
          obtain ⟨q, hq, rfl⟩ := ht
          obtain ⟨q', hq', rfl⟩ := hj
          rw [hq] at hq'; cases hq'
          exact (at' (i + 1) q hq).choose_spec.2.2.1
        simpa [parts] using this
    · refine allNumsL _ fun j hj => ?_
      obtain ⟨p, hpp, rfl⟩ := List.mem_map.1 hj
      obtain ⟨i, hi⟩ := List.getElem?_of_mem hpp
      exact (at' i p hi).choose_spec.2.2.2.1
    · refine .arr _ _ (by simp [toVL_len, hl]) fun i x y hx hy => ?_
      rw [toVL_at] at hy
      simp only [List.getElem?_map, Option.map_eq_some_iff] at hy
      obtain ⟨_, ⟨p, hpp, rfl⟩, rfl⟩ := hy
      exact (hp i x p hx hpp).2.2.2

end JV
