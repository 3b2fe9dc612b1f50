import Verif.Spec.Size
import Verif.Spec.Work
import Verif.Proofs.Doc
import Verif.Proofs.EscBytes
import Verif.Proofs.GrammarComplete
import Verif.Proofs.Reformat
import Verif.Proofs.RoundTrip
/-! Sizes of values and texts. -/
namespace JV
open Spec

/-! ### a value is not bigger than its text -/

mutual
def jw : J → Nat
  | .str s => s.length + 2
  | .num t => t.length
  | .bool _ => 4
  | .null => 4
  | .arr xs => jwL xs + 2
  | .obj ms => jwM ms + 2
def jwL : List J → Nat
  | [] => 0
  | v :: vs => jw v + jwL vs
def jwM : List Mem → Nat
  | [] => 0
  | ⟨k, v⟩ :: ms => k.length + 3 + jw v + jwM ms
end

theorem utf8_length_le {r : Nat} : (utf8 r).length ≤ 4 := by unfold utf8; (repeat' split) <;> simp

theorem uesc_length {e : Bytes} {r : Nat} (h : UEsc e r) : e.length = 6 := by
  obtain ⟨a, b, c, d, _, _, _, _, rfl, _⟩ := h; rfl

theorem lstr_size {t d : Bytes} (h : LStr t d) : d.length ≤ t.length := by
  induction h with
  | nil => simp
  | ascii c t d _ _ _ _ ih => simpa using ih
  | multi c m t d _ _ _ ih => simpa using ih
  | esc c b t d _ _ ih => simp; omega
  | uni e r t d he _ _ ih =>
    have := uesc_length he; have := utf8_length_le (r := r)
    simp only [List.length_append]; omega
  | pair e1 e2 hi lo t d h1 h2 _ _ _ _ _ ih =>
    have := uesc_length h1; have := uesc_length h2
    simp only [List.length_append, utf8four, List.length_cons, List.length_nil]; omega

theorem lval_size {num : Bytes → Prop} {t : Bytes} {j : J} (h : LVal num t j) : jw j ≤ t.length := by
  refine @LVal.rec num (fun t j _ => jw j ≤ t.length) (fun t js _ => jwL js + 1 ≤ t.length) (fun t ms _ => jwM ms + 1 ≤ t.length) ?_ ?_ ?_ ?_ ?_ ?_ ?_ ?_ ?_ ?_ ?_ t j h
  · simp [jw]
  · simp [jw]
  · simp [jw]
  · intro t _; simp [jw]
  · intro t d h; have := lstr_size h; simp [jw]; omega
  · intro t xs _ ih; simp [jw]; omega
  · intro t ms _ ih; simp [jw]; omega
  · intro s _; simp [jwL]
  · intro s t ts v vs _ _ _ _ ih ihs; simp [jwL]; omega
  · intro s _; simp [jwM]
  · intro s k b1 b2 t ts d v vs _ hk _ _ _ _ _ ih ihs; have := lstr_size hk; simp [jwM]; omega

theorem weightM_assign (e : Ent) (es : List Ent) : weightM (assign e es) ≤ e.key.length + 3 + weight e.v + weightM es := by
  induction es with
  | nil => obtain ⟨k, i, v⟩ := e; simp [assign, weightM, Ent.key, Ent.v]
  | cons a es ih =>
    obtain ⟨k, i, v⟩ := e; obtain ⟨k', i', v'⟩ := a
    unfold assign
    split
    · simp only [weightM, Ent.key, Ent.v]; omega
    · simp only [weightM, Ent.key, Ent.v] at ih ⊢; omega

mutual
theorem toV_weight (E : Env) : ∀ j : J, weight (toV E j) ≤ jw j
  | .null => by simp [toV, weight, jw]
  | .bool _ => by simp [toV, weight, jw]
  | .num _ => by simp [toV, weight, jw]
  | .str _ => by simp [toV, weight, jw]
  | .arr xs => by have := toVL_weight E xs; simp [toV, weight, jw]; omega
  | .obj ms => by have := toVM_weight E ms {}; simp [toV, weight, jw, weightM] at this ⊢; omega
theorem toVL_weight (E : Env) : ∀ js : List J, weightL (toVL E js) ≤ jwL js
  | [] => by simp [toVL, weightL]
  | x :: xs => by have := toV_weight E x; have := toVL_weight E xs; simp [toVL, weightL, jwL]; omega
theorem toVM_weight (E : Env) : ∀ (ms : List Mem) (st : OSt), weightM (toVM E ms st).kvs ≤ weightM st.kvs + jwM ms
  | [], st => by simp [toVM]
  | ⟨k, v⟩ :: ms, st => by
    have h1 := toV_weight E v
    have h2 := toVM_weight E ms (setMember st k (toV E v))
    have h3 := weightM_assign ⟨k, st.incr + 1, toV E v⟩ st.kvs
    simp only [toVM, jwM, setMember, Ent.key, Ent.v] at *
    omega
end

theorem unmarshal_weight {E : Env} {s : Bytes} {v : V} (h : unmarshal E s = .ok v) : weight v ≤ s.length := by
  obtain ⟨j, ⟨b1, t, b2, rfl, _, hv, _⟩, rfl⟩ := (unmarshal_iff E s v).1 h
  have := lval_size hv; have := toV_weight E j
  simp; omega

/-! ### what is written is not much bigger than the value -/

theorem fmtU4_length (r : Nat) : (fmtU4 r).length = 6 := rfl

theorem escFn_length (b : UInt8) (f : EscFn) : (f.run b).length ≤ 6 := by cases f <;> simp [EscFn.run]

theorem utf8_long {r : Nat} (h : 0x10000 ≤ r) : (utf8 r).length = 4 := by
  unfold utf8; rw [if_neg (by omega), if_neg (by omega), if_neg (by omega)]; rfl

theorem escUTF16_length (r : Nat) : (escUTF16 r).length ≤ 6 * (utf8 r).length := by
  unfold escUTF16
  split
  · rw [fmtU4_length]; have := utf8_length_pos r; omega
  · rw [utf8_long (by omega), List.length_append, fmtU4_length, fmtU4_length]; omega

theorem escRune_length (T : Escaper) {r : Nat} (h : Scalar r) : (escRune T r).length ≤ 6 * (utf8 r).length := by
  have hp := utf8_length_pos r
  unfold escRune
  split
  · have := escFn_length (UInt8.ofNat r) (T.ascii r); omega
  split
  · unfold escUTF8
    split
    · exact escUTF16_length r
    · rw [encodeRune_scalar h]; omega
  · exact escUTF16_length r

theorem escRune_bad (T : Escaper) : (escRune T 0xFFFD).length ≤ 6 := by
  unfold escRune
  rw [if_neg (by omega)]
  split <;> decide

theorem decodes_size (T : Escaper) {s : Bytes} {rs : List Nat} (h : Decodes s rs) : (rs.flatMap (escRune T)).length ≤ 6 * s.length := by
  induction h with
  | nil => simp
  | char r t rs hr _ ih => have := escRune_length T hr; simp only [List.flatMap_cons, List.length_append]; omega
  | bad b t rs _ _ ih => have := escRune_bad T; simp only [List.flatMap_cons, List.length_append, List.length_cons]; omega

theorem escText_size (T : Escaper) (s : Bytes) : (escText T s).length ≤ 6 * s.length := decodes_size T (Decodes_runes s)

/-- lines beyond the first -/
def lineLen (ind : Option (Bytes × Bytes)) (d : Nat) : Nat :=
  match ind with
  | none => 0
  | some (p, i) => 2 + p.length + d * i.length

theorem nl_length (ind : Option (Bytes × Bytes)) (d : Nat) : (nl ind d).length + (if ind.isSome then [(0x20 : UInt8)] else []).length = lineLen ind d := by
  unfold nl lineLen
  match ind with
  | none => simp
  | some (p, i) => simp [List.length_flatten]; omega

theorem lineLen_mono {ind : Option (Bytes × Bytes)} {d d' : Nat} (h : d ≤ d') : lineLen ind d ≤ lineLen ind d' := by
  unfold lineLen
  match ind with
  | none => simp
  | some (p, i) => have := Nat.mul_le_mul_right i.length h; simp only; omega

mutual
/-- the number of line breaks -/
def breaks : V → Nat
  | .arr xs => breaksL xs + 1
  | .obj _ kvs _ => breaksM kvs + 1
  | _ => 0
def breaksL : List V → Nat
  | [] => 0
  | v :: vs => breaks v + 1 + breaksL vs
def breaksM : List Ent → Nat
  | [] => 0
  | ⟨_, _, v⟩ :: es => breaks v + 1 + breaksM es
end

theorem weightL_sum (xs : List V) : weightL xs = (xs.map weight).sum := by
  induction xs with
  | nil => rfl
  | cons x xs ih => simp [weightL, ih]

theorem weightM_sum (es : List Ent) : weightM es = (es.map fun e => e.key.length + 3 + weight e.v).sum := by
  induction es with
  | nil => rfl
  | cons e es ih => obtain ⟨k, i, v⟩ := e; simp [weightM, ih, Ent.key, Ent.v]

theorem breaksL_sum (xs : List V) : breaksL xs = (xs.map fun x => breaks x + 1).sum := by
  induction xs with
  | nil => rfl
  | cons x xs ih => simp [breaksL, ih]

theorem breaksM_sum (es : List Ent) : breaksM es = (es.map fun e => breaks e.v + 1).sum := by
  induction es with
  | nil => rfl
  | cons e es ih => obtain ⟨k, i, v⟩ := e; simp [breaksM, ih, Ent.v]

theorem sum_le {α : Type} {f g : α → Nat} : ∀ l : List α, (∀ a ∈ l, f a ≤ g a) → (l.map f).sum ≤ (l.map g).sum
  | [], _ => by simp
  | a :: l, h => by
    have := h a (by simp); have := sum_le l fun b hb => h b (by simp [hb])
    simp only [List.map_cons, List.sum_cons]; omega

theorem nesting_kid {v c : V} (h : Kid v c) : nesting c + 1 ≤ nesting v := by
  cases v with
  | arr xs =>
    change c ∈ xs at h
    have : ∀ xs : List V, c ∈ xs → nesting c ≤ nestingL xs := by
      intro xs; induction xs with
      | nil => intro h; cases h
      | cons x xs ih =>
        intro h; rcases List.mem_cons.1 h with rfl | h
        · simp only [nestingL]; omega
        · have := ih h; simp only [nestingL]; omega
    have := this xs h; simp only [nesting]; omega
  | obj n kvs low =>
    obtain ⟨e, he, rfl⟩ := h
    have : ∀ es : List Ent, e ∈ es → nesting e.v ≤ nestingM es := by
      intro es; induction es with
      | nil => intro h; cases h
      | cons x xs ih =>
        intro h; obtain ⟨k, i, w⟩ := x; rcases List.mem_cons.1 h with rfl | h
        · simp only [nestingM, Ent.v]; omega
        · have := ih h; simp only [nestingM]; omega
    have := this kvs he; simp only [nesting]; omega
  | _ => cases h

theorem breaks_weight (v : V) (hk : Her KeysNodup v) (hn : Her NumHasText v) : breaks v + 1 ≤ weight v := by
  induction v using kid_ind with
  | step v ih =>
    have ih : ∀ c, Kid v c → breaks c + 1 ≤ weight c := fun c hc => ih c hc (her_kid hk hk hc) (her_kid hk hn hc)
    cases v with
    | arr xs =>
      simp only [breaks, weight, breaksL_sum, weightL_sum]
      have := sum_le (f := fun x => breaks x + 1) (g := weight) xs fun x hx => ih x hx
      omega
    | obj n kvs low =>
      simp only [breaks, weight, breaksM_sum, weightM_sum]
      have := sum_le (f := fun e : Ent => breaks e.v + 1) (g := fun e => e.key.length + 3 + weight e.v) kvs fun e he => by have := ih e.v ⟨e, he, rfl⟩; omega
      omega
    | num src n => have := List.length_pos_iff.2 (her_self hn : src ≠ []); simp only [breaks, weight]; omega
    | _ => simp [breaks, weight]

theorem nesting_weight (v : V) : 2 * nesting v ≤ weight v := by
  induction v using kid_ind with
  | step v ih =>
    cases v with
    | arr xs =>
      have : ∀ ys : List V, (∀ x ∈ ys, 2 * nesting x ≤ weight x) → 2 * nestingL ys ≤ weightL ys := by
        intro ys; induction ys with
        | nil => simp [nestingL]
        | cons y ys ih' => intro h; have := h y (by simp); have := ih' fun x hx => h x (by simp [hx]); simp only [nestingL, weightL]; omega
      have := this xs fun x hx => ih x hx
      simp only [nesting, weight]; omega
    | obj n kvs low =>
      have : ∀ es : List Ent, (∀ e ∈ es, 2 * nesting e.v ≤ weight e.v) → 2 * nestingM es ≤ weightM es := by
        intro es; induction es with
        | nil => simp [nestingM]
        | cons e es ih' => intro h; have := h e (by simp); have := ih' fun x hx => h x (by simp [hx]); obtain ⟨k, i, w⟩ := e; simp only [nestingM, weightM, Ent.v] at *; omega
      have := this kvs fun e he => ih e.v ⟨e, he, rfl⟩
      simp only [nesting, weight]; omega
    | _ => simp [nesting]

variable {E : Env} {S : SortFn} {o : Opt} {T : Escaper}

/-- what one child adds -/
theorem elems_size {ind : Option (Bytes × Bytes)} {d D : Nat} (hd : d ≤ D) (hv : V) : ∀ (xs : List V) (k : Nat) (first : Bool) (par : Option ParentInfo),
    (∀ x ∈ xs, ∀ par, ((doc E S o T x par).print ind d).length + 1 ≤ 6 * weight x + breaks x * lineLen ind D) →
    (printElems ind d first (docElems E S o T hv xs k par)).length ≤ 6 * weightL xs + breaksL xs * lineLen ind D
  | [], _, _, _, _ => by simp [docElems, printElems]
  | x :: xs, k, first, par, h => by
    have h1 := h x (by simp) (if o.lessFunc.isSome then some (newParentInfo hv par (intKey k)) else none)
    have h2 := elems_size hd hv xs (k + 1) false par fun y hy => h y (by simp [hy])
    have h3 := nl_length ind d
    have h4 := lineLen_mono (ind := ind) hd
    have h5 : (if first then [] else [(0x2C : UInt8)]).length ≤ 1 := by cases first <;> simp
    simp only [docElems, printElems, List.length_append, weightL, breaksL, Nat.add_mul, Nat.one_mul]
    omega

theorem mems_size {ind : Option (Bytes × Bytes)} {d D : Nat} (hd : d ≤ D) (par : Option ParentInfo) : ∀ (es : List Ent) (fw : Bool),
    (∀ e ∈ es, ∀ par, ((doc E S o T e.v par).print ind d).length + 1 ≤ 6 * weight e.v + breaks e.v * lineLen ind D) →
    (printMems ind d (docMems o T par fw (es.map fun e => (e, doc E S o T e.v)))).length ≤ 6 * weightM es + breaksM es * lineLen ind D
  | [], _, _ => by simp [docMems, printMems]
  | e :: es, fw, h => by
    have h2 := fun b => mems_size hd par es b fun y hy => h y (by simp [hy])
    have hw : weightM (e :: es) = e.key.length + 3 + weight e.v + weightM es := by obtain ⟨k, i, v⟩ := e; rfl
    have hb : breaksM (e :: es) = breaks e.v + 1 + breaksM es := by obtain ⟨k, i, v⟩ := e; rfl
    simp only [List.map_cons, docMems]
    split
    · have := h2 false
      rw [hw, hb]; simp only [Nat.add_mul]; omega
    · have h1 := h e (by simp) (if o.lessFunc.isSome then some (newParentInfo e.v par (stringKey e.key)) else none)
      have h2 := h2 true
      have h3 := nl_length ind d
      have h4 := lineLen_mono (ind := ind) hd
      have h5 : (if fw then [(0x2C : UInt8)] else []).length ≤ 1 := by cases fw <;> simp
      have h6 := escText_size T e.key
      rw [hw, hb]
      simp only [printMems, List.length_append, List.length_cons, Nat.add_mul, Nat.one_mul]
      omega

theorem print_size (hS : GoodSort S) (v : V) (hk : Her KeysNodup v) (hn : Her NumHasText v) : ∀ (ind : Option (Bytes × Bytes)) (d D : Nat) (par : Option ParentInfo),
    d + nesting v ≤ D → ((doc E S o T v par).print ind d).length + 1 ≤ 6 * weight v + breaks v * lineLen ind D := by
  induction v using kid_ind with
  | step v ih =>
    intro ind d D par hD
    have ih : ∀ c, Kid v c → ∀ par, ((doc E S o T c par).print ind (d + 1)).length + 1 ≤ 6 * weight c + breaks c * lineLen ind D := by
      intro c hc par
      have := nesting_kid hc
      exact ih c hc (her_kid hk hk hc) (her_kid hk hn hc) ind (d + 1) D par (by omega)
    have h3 := nl_length ind d
    cases v with
    | nilp => simp [doc, Doc.print, weight, breaks]
    | notExist => simp [doc, Doc.print, weight, breaks]
    | null => simp [doc, Doc.print, weight, nullText, breaks]
    | bool b => cases b <;> simp [doc, Doc.print, weight, formatBool, breaks]
    | str s => have := escText_size T s; simp [doc, Doc.print, weight]; omega
    | num src n =>
      have h : src ≠ [] := her_self hn
      have := List.length_pos_iff.2 h
      have : numText E o T src n = src := by simp [numText, special, h]
      simp only [doc, Doc.print, weight, breaks, this]; omega
    | arr xs =>
      unfold doc
      split
      · simp [Doc.print, weight]; omega
      · rename_i h0
        have hD' : d + 1 ≤ D := by simp only [nesting] at hD; omega
        have h1 := elems_size hD' (.arr xs) xs 0 true par fun x hx => ih x hx
        have h4 := lineLen_mono (ind := ind) (show d ≤ D by omega)
        simp only [Doc.print, List.length_append, List.length_cons, List.length_nil, weight, breaks, Nat.add_mul, Nat.one_mul]
        omega
    | obj n kvs low =>
      by_cases h0 : kvs = []
      · subst h0; simp [doc, Doc.print, weight, weightM]; omega
      · rw [doc_obj _ _ _ _ h0]
        have hD' : d + 1 ≤ D := by simp only [nesting] at hD; omega
        have h1 := mems_size (E := E) (S := S) (o := o) (T := T) (ind := ind) hD' par (sorted S o par kvs) false fun e he => ih e.v ⟨e, sorted_mem he, rfl⟩
        have hp := sorted_perm (o := o) hS par kvs
        have hw : weightM (sorted S o par kvs) = weightM kvs := by rw [weightM_sum, weightM_sum]; exact (hp.map _).sum_nat
        have hb : breaksM (sorted S o par kvs) = breaksM kvs := by rw [breaksM_sum, breaksM_sum]; exact (hp.map _).sum_nat
        have h4 := lineLen_mono (ind := ind) (show d ≤ D by omega)
        rw [hw, hb] at h1
        simp only [Doc.print, List.length_append, List.length_cons, List.length_nil, weight, breaks, Nat.add_mul, Nat.one_mul]
        omega

theorem parsed_hasText {s : Bytes} {v : V} (h : unmarshal E s = .ok v) : Her NumHasText v := by
  intro l c hc
  cases c with
  | num t n =>
    obtain ⟨⟨c, t', h, -⟩, -⟩ := reads_numTok (unmarshal_nums h l _ hc t n rfl)
    rw [h]; exact List.cons_ne_nil _ _
  | _ => trivial

theorem marshal_size (hS : GoodSort S) {d : Opt} {v : V} (hv : Marshalable v) (hn : Her NumHasText v) {opts : List MOpt} {b : Bytes}
    (h : marshal E S d v opts = .ok (b, none)) : b.length + 1 ≤ 6 * weight v + breaks v * lineLen (combineOptions d opts).indent (nesting v) := by
  rw [(marshal_ok hv h).2]
  exact print_size hS v hv.1 hn _ 0 _ none (by omega)

/-! ### that is how big it may get -/

theorem escText_del (e : BitVec 8) (n : Nat) : (escText (parseEscapingFuncs e) (List.replicate n 0x7F)).length = 6 * n := by
  have hd : Decodes (List.replicate n (0x7F : UInt8)) (List.replicate n 0x7F) := by
    induction n with
    | zero => exact .nil
    | succ n ih => exact .char 0x7F _ _ (.inl (by omega)) ih
  unfold escText
  rw [runes_of_decodes hd]
  have h1 : escRune (parseEscapingFuncs e) 0x7F = [0x5C, 0x75, 0x30, 0x30, 0x37, 0x46] := by
    unfold escRune
    rw [if_pos (by omega)]
    unfold parseEscapingFuncs
    simp only
    have : ∀ a b : Bool, (((if a then tblSet 0x26 .nothing (tblSet 0x3E .nothing (tblSet 0x3C .nothing (if b then tblSet 0x2F .nothing baseTable else baseTable)))
      else (if b then tblSet 0x2F .nothing baseTable else baseTable)) 0x7F).run (UInt8.ofNat 0x7F)) = [0x5C, 0x75, 0x30, 0x30, 0x37, 0x46] := by decide +kernel
    exact this _ _
  clear hd
  induction n with
  | zero => rfl
  | succ n ih => rw [List.replicate_succ, List.flatMap_cons, List.length_append, h1, ih]; simp; omega

/-- brackets in brackets -/
def deepJ : Nat → J
  | 0 => .arr []
  | n + 1 => .arr [deepJ n]

theorem deepJ_text {num : Bytes → Prop} : ∀ n : Nat, LVal num (List.replicate (n + 1) 0x5B ++ List.replicate (n + 1) 0x5D) (deepJ n)
  | 0 => .arr _ _ (.nil [] (by intro c h; cases h))
  | n + 1 => by
    have h := LElems.cons (numTok := num) [] _ [0x5D] _ [] (by intro c h; cases h) (deepJ_text n) (.nil [] (by intro c h; cases h))
      (by cases n <;> trivial)
    have := LVal.arr _ _ h
    have e : List.replicate (n + 1 + 1) (0x5B : UInt8) ++ List.replicate (n + 1 + 1) (0x5D : UInt8) =
        0x5B :: (List.replicate (n + 1) 0x5B ++ (List.replicate (n + 1) 0x5D ++ [0x5D])) := by
      rw [show List.replicate (n + 1 + 1) (0x5D : UInt8) = List.replicate (n + 1) 0x5D ++ [0x5D] from List.replicate_succ']
      rfl
    rw [e]
    simpa [deepJ] using this

theorem deepJ_print (p i : Bytes) : ∀ (n d : Nat) (par : Option ParentInfo), ((doc E S o T (toV E (deepJ n)) par).print (some (p, i)) d).length =
    2 * (n + 1) + 2 * n * (1 + p.length) + (n * n + 2 * n * d) * i.length
  | 0, d, par => by simp [deepJ, toV, toVL, doc, Doc.print]
  | n + 1, d, par => by
    have ih := deepJ_print p i n (d + 1) (if o.lessFunc.isSome then some (newParentInfo (.arr [toV E (deepJ n)]) par (intKey 0)) else none)
    simp only [deepJ, toV, toVL, doc, docElems, Doc.print, printElems, List.length_cons, List.length_nil, Nat.zero_add, Nat.one_ne_zero, if_false, if_true,
      List.length_append, ih, nl, List.length_flatten, List.map_replicate, List.sum_replicate_nat]
    grind

end JV
