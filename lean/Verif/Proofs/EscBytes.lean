import Verif.Proofs.Options
/-! Which bytes Marshal writes. -/
namespace JV
open Spec

theorem dig_eq {n : Nat} (h : n < 16) : hexUpper n = (if n < 10 then UInt8.ofNat (0x30 + n) else UInt8.ofNat (0x37 + n)) := by
  have : ∀ n, n < 16 → hexUpper n = (if n < 10 then UInt8.ofNat (0x30 + n) else UInt8.ofNat (0x37 + n)) := by decide
  exact this n h

theorem fmtU4_eq {u : Nat} (h : u < 0x10000) : fmtU4 u = uText u := by
  unfold fmtU4 uText
  rw [dig_eq (by omega), dig_eq (by omega), dig_eq (by omega), dig_eq (by omega), show u / 4096 % 16 = u / 4096 by omega]

theorem escUTF16_eq {r : Nat} (h : Scalar r) : escUTF16 r =
    if r < 0x10000 then uText r else uText (0xD800 + (r - 0x10000) / 1024) ++ uText (0xDC00 + (r - 0x10000) % 1024) := by
  unfold escUTF16
  by_cases h1 : r ≤ 0xFFFF
  · rw [if_pos h1, if_pos (by omega), fmtU4_eq (by omega)]
  · rw [if_neg h1, if_neg (by omega)]
    have hr : r < 0x110000 := by unfold Scalar at h; omega
    have e1 : ((r - 0x10000) &&& 0xFFC00) >>> 10 = (r - 0x10000) / 1024 % 1024 := mask_shift _ _ 10 10 rfl
    have e2 : (r - 0x10000) &&& 0x003FF = (r - 0x10000) % 1024 := Nat.and_two_pow_sub_one_eq_mod _ 10
    simp only [e1, e2]
    rw [fmtU4_eq (by omega), fmtU4_eq (by omega), show (r - 0x10000) / 1024 % 1024 + 0xD800 = 0xD800 + (r - 0x10000) / 1024 by omega, Nat.add_comm _ 0xDC00]

def escBits (u h s : Bool) : BitVec 8 := (if u then 1 else 0) ||| (if h then 0 else 2) ||| (if s then 0 else 4)

theorem escBits_has : ∀ u h s, escHas (escBits u h s) escapeUTF8 = u ∧ escHas (escBits u h s) escapeWithoutHTML = !h ∧ escHas (escBits u h s) escapeIgnoreSlash = !s := by decide

theorem esc_ascii : ∀ u h s, ∀ r, r < 128 → ((parseEscapingFuncs (escBits u h s)).ascii r).run (UInt8.ofNat r) = escSpec u h s r := by decide +kernel

theorem escSpec_high (u h s : Bool) {r : Nat} (hr : ¬ r < 0x80) : escSpec u h s r =
    if u ∧ r ≠ 0x2028 ∧ r ≠ 0x2029 then utf8 r
    else if r < 0x10000 then uText r
    else uText (0xD800 + (r - 0x10000) / 1024) ++ uText (0xDC00 + (r - 0x10000) % 1024) := by
  unfold escSpec
  iterate 11 (refine (if_neg (by omega)).trans ?_)
  rfl

/-- what is written for a code point -/
theorem escRune_spec (e : BitVec 8) {r : Nat} (hr : Scalar r) :
    escRune (parseEscapingFuncs e) r = escSpec (escHas e escapeUTF8) (!escHas e escapeWithoutHTML) (!escHas e escapeIgnoreSlash) r := by
  generalize hu : escHas e escapeUTF8 = u
  generalize hh : (!escHas e escapeWithoutHTML) = h
  generalize hs : (!escHas e escapeIgnoreSlash) = s
  have hb := escBits_has u h s
  have : parseEscapingFuncs e = parseEscapingFuncs (escBits u h s) := escaper_eq (by rw [hb.1, hu]) (by rw [hb.2.1, ← hh, Bool.not_not]) (by rw [hb.2.2, ← hs, Bool.not_not])
  rw [this]
  unfold escRune
  by_cases h1 : r ≤ 0x7F
  · rw [if_pos h1]; exact esc_ascii u h s r (by omega)
  · rw [if_neg h1]
    have e1 : (parseEscapingFuncs (escBits u h s)).utf8 = u := hb.1
    rw [e1]
    rw [escSpec_high u h s (by omega)]
    unfold escUTF8
    rw [escUTF16_eq hr, encodeRune_scalar hr]
    cases u with
    | false => simp
    | true =>
      simp only [if_true, true_and]
      by_cases hl : r = 0x2028 ∨ r = 0x2029
      · rw [if_pos hl, if_neg (c := r ≠ 0x2028 ∧ r ≠ 0x2029) (by omega)]
      · rw [if_neg hl, if_pos (by omega)]

theorem escText_spec (e : BitVec 8) {s : Bytes} {rs : List Nat} (h : Decodes s rs) :
    escText (parseEscapingFuncs e) s = rs.flatMap (escSpec (escHas e escapeUTF8) (!escHas e escapeWithoutHTML) (!escHas e escapeIgnoreSlash)) := by
  unfold escText
  rw [runes_of_decodes h]
  have := h.scalar
  clear h
  induction rs with
  | nil => rfl
  | cons r rs ih => rw [List.flatMap_cons, List.flatMap_cons, escRune_spec e (this r (by simp)), ih fun x hx => this x (by simp [hx])]

theorem set_utf8 (os : List MOpt) : escHas (os.foldl MOpt.mergeTo emptyOptions).escProps escapeUTF8 = lastSet setsUTF8 os false :=
  opt_field (fun o => escHas o.escProps escapeUTF8) _ merge_utf8 emptyOptions os
theorem set_html (os : List MOpt) : (!escHas (os.foldl MOpt.mergeTo emptyOptions).escProps escapeWithoutHTML) = lastSet setsHTML os true :=
  opt_field (fun o => !escHas o.escProps escapeWithoutHTML) _ merge_html emptyOptions os
theorem set_slash (os : List MOpt) : (!escHas (os.foldl MOpt.mergeTo emptyOptions).escProps escapeIgnoreSlash) = lastSet setsSlash os true :=
  opt_field (fun o => !escHas o.escProps escapeIgnoreSlash) _ merge_slash emptyOptions os
theorem set_indent (os : List MOpt) : (optOf emptyOptions os).indent = lastSet setsIndent os none := opt_field (fun o => o.indent) _ merge_indent emptyOptions os

/-! ### closed properties of the output -/

/-- a property of texts kept by concatenation -/
structure Closing (Q : Bytes → Prop) : Prop where
  nil : Q []
  app : ∀ a b, Q a → Q b → Q (a ++ b)

inductive DocAll (Q : Bytes → Prop) : Doc → Prop
  | leaf (t) : Q t → DocAll Q (.leaf t)
  | arr (xs) : (∀ x ∈ xs, DocAll Q x) → DocAll Q (.arr xs)
  | obj (ms) : (∀ m ∈ ms, Q (DMem.key m)) → (∀ m ∈ ms, DocAll Q (DMem.v m)) → DocAll Q (.obj ms)

/-- what the layout is made of -/
def LayoutOK (Q : Bytes → Prop) (ind : Option (Bytes × Bytes)) : Prop :=
  Q [0x5B] ∧ Q [0x5D] ∧ Q [0x7B] ∧ Q [0x7D] ∧ Q [0x22] ∧ Q [0x3A] ∧ Q [0x2C] ∧ (∀ p i, ind = some (p, i) → Q [0x0A] ∧ Q p ∧ Q i ∧ Q [0x20])

theorem closing_nl {Q : Bytes → Prop} (hQ : Closing Q) {ind : Option (Bytes × Bytes)} (hl : LayoutOK Q ind) (d : Nat) : Q (nl ind d) := by
  unfold nl
  match ind, hl with
  | none, _ => exact hQ.nil
  | some (p, i), hl =>
    obtain ⟨h1, h2, h3, -⟩ := hl.2.2.2.2.2.2.2 p i rfl
    refine hQ.app [0x0A] _ h1 (hQ.app _ _ h2 ?_)
    induction d with
    | zero => exact hQ.nil
    | succ d ih => rw [List.replicate_succ, List.flatten_cons]; exact hQ.app _ _ h3 ih

theorem closing_space {Q : Bytes → Prop} (hQ : Closing Q) {ind : Option (Bytes × Bytes)} (hl : LayoutOK Q ind) : Q (if ind.isSome then [0x20] else []) := by
  match ind, hl with
  | none, _ => exact hQ.nil
  | some (p, i), hl => exact (hl.2.2.2.2.2.2.2 p i rfl).2.2.2

theorem print_closing {Q : Bytes → Prop} (hQ : Closing Q) {ind : Option (Bytes × Bytes)} (hl : LayoutOK Q ind) {d : Doc} (h : DocAll Q d) : ∀ n, Q (d.print ind n) := by
  have hopt : ∀ (b : Bool) (t : Bytes), Q t → Q (if b then t else []) := by intro b t ht; cases b; exact hQ.nil; exact ht
  induction h with
  | leaf t ht => intro n; exact ht
  | arr xs _ ih =>
    intro n
    unfold Doc.print
    refine hQ.app [0x5B] _ hl.1 (hQ.app _ _ (hQ.app _ _ ?_ (closing_nl hQ hl n)) hl.2.1)
    have : ∀ (ys : List Doc) (first : Bool), (∀ y ∈ ys, ∀ n, Q (y.print ind n)) → Q (printElems ind (n + 1) first ys) := by
      intro ys
      induction ys with
      | nil => intro _ _; unfold printElems; exact hQ.nil
      | cons y ys ihy =>
        intro first hy
        unfold printElems
        refine hQ.app _ _ (hQ.app _ _ (hQ.app _ _ ?_ (closing_nl hQ hl _)) (hy y (by simp) _)) (ihy false fun z hz => hy z (by simp [hz]))
        have := hopt (!first) [0x2C] hl.2.2.2.2.2.2.1
        cases first <;> exact this
    exact this xs true ih
  | obj ms hk _ ih =>
    intro n
    unfold Doc.print
    refine hQ.app [0x7B] _ hl.2.2.1 (hQ.app _ _ (hQ.app _ _ ?_ (closing_nl hQ hl n)) hl.2.2.2.1)
    have : ∀ (ys : List DMem), (∀ y ∈ ys, Q (DMem.key y)) → (∀ y ∈ ys, ∀ n, Q ((DMem.v y).print ind n)) → Q (printMems ind (n + 1) ys) := by
      intro ys
      induction ys with
      | nil => intro _ _; unfold printMems; exact hQ.nil
      | cons y ys ihy =>
        intro h1 h2
        obtain ⟨c, k, v⟩ := y
        unfold printMems
        have hk := h1 ⟨c, k, v⟩ (by simp)
        have hv := h2 ⟨c, k, v⟩ (by simp) (n + 1)
        refine hQ.app _ _ (hQ.app _ _ (hopt c _ hl.2.2.2.2.2.2.1) (closing_nl hQ hl _)) ?_
        refine hQ.app [0x22] _ hl.2.2.2.2.1 (hQ.app _ _ hk (hQ.app [0x22] _ hl.2.2.2.2.1 (hQ.app [0x3A] _ hl.2.2.2.2.2.1 (hQ.app _ _ (hQ.app _ _ (closing_space hQ hl) hv) ?_))))
        exact ihy (fun z hz => h1 z (by simp [hz])) fun z hz => h2 z (by simp [hz])
    exact this ms hk ih

theorem and_xor (x s m : BitVec 64) (h : s &&& m = 0#64) : (x ^^^ s) &&& m = x &&& m := by
  have : (x ^^^ s) &&& m = (x &&& m) ^^^ (s &&& m) := by
    ext i hi
    simp only [BitVec.getElem_and, BitVec.getElem_xor]
    cases x[i] <;> cases s[i] <;> cases m[i] <;> rfl
  rw [this, h, BitVec.xor_zero]

theorem valid_fneg {f : BitVec 64} (hf : isValidFloat f = true) : isValidFloat (fneg f) = true := by
  unfold isValidFloat isNaN isInfP isInfN fneg at *
  simp only [Bool.and_eq_true, Bool.not_eq_true', Bool.or_eq_false_iff, beq_eq_false_iff_ne, ne_eq] at hf ⊢
  have hx : ∀ c, f ^^^ 0x8000000000000000#64 = c → f = c ^^^ 0x8000000000000000#64 := by
    intro c h; rw [← h, BitVec.xor_assoc, BitVec.xor_self, BitVec.xor_zero]
  rw [and_xor _ _ _ (by decide), and_xor _ _ _ (by decide)]
  exact ⟨hf.1, fun h => hf.2.2 (hx _ h), fun h => hf.2.1 (hx _ h)⟩

variable {E : Env} {S : SortFn} {o : Opt} {T : Escaper}

/-- the texts of numbers satisfy `Q`, strings and keys `P` -/
def NumTexts (Q P : Bytes → Prop) : V → Prop
  | .num src _ => Q src
  | .str s => P s
  | .obj _ kvs _ => ∀ e ∈ kvs, P e.key
  | _ => True

theorem doc_all {Q P : Bytes → Prop} (hQ : Closing Q) (hl : LayoutOK Q none) (hw : Q nullText ∧ Q (formatBool true) ∧ Q (formatBool false) ∧ Q [0x4E, 0x61, 0x4E] ∧ Q [0x2B, 0x49, 0x6E, 0x66] ∧ Q [0x2D, 0x49, 0x6E, 0x66])
    (hs : ∀ s, P s → Q (escText T s)) (ho : P o.nanToString ∧ P o.infPos ∧ P (infNegString o)) (hf : ∀ f, isValidFloat f = true → Q (E.jsonFloat f)) (v : V) (hk : Her KeysNodup v) (hn : Her (NumTexts Q P) v) (par : Option ParentInfo) :
    DocAll Q (doc E S o T v par) := by
  have hq : ∀ t, Q t → Q (0x22 :: t ++ [0x22]) := fun t ht => hQ.app [0x22] _ hl.2.2.2.2.1 (hQ.app _ _ ht hl.2.2.2.2.1)
  induction v using kid_ind generalizing par with
  | step v ih =>
    have ihk : ∀ c, Kid v c → ∀ par, DocAll Q (doc E S o T c par) := fun c hc par => ih c hc (her_kid hk hk hc) (her_kid hk hn hc) par
    cases v with
    | nilp => simp only [doc]; exact .leaf _ hQ.nil
    | notExist => simp only [doc]; exact .leaf _ hQ.nil
    | str s => simp only [doc]; exact .leaf _ (hq _ (hs s (her_self hn)))
    | bool b => simp only [doc]; cases b; exact .leaf _ hw.2.2.1; exact .leaf _ hw.2.1
    | null => simp only [doc]; exact .leaf _ hw.1
    | num src n =>
      simp only [doc]
      refine .leaf _ ?_
      unfold numText
      cases hsp : special src n with
      | none => exact her_self hn
      | some s =>
        have hneg : ∀ f, isValidFloat f = true → isValidFloat (fneg f) = true := fun f => valid_fneg
        cases s <;> simp only [specText] <;> (repeat' split) <;>
          first
          | exact hQ.nil
          | exact hw.1
          | exact hq [0x4E, 0x61, 0x4E] hw.2.2.2.1
          | exact hq [0x2B, 0x49, 0x6E, 0x66] hw.2.2.2.2.1
          | exact hq [0x2D, 0x49, 0x6E, 0x66] hw.2.2.2.2.2
          | exact hq _ (hs _ ho.1)
          | exact hq _ (hs _ ho.2.1)
          | exact hq _ (hs _ ho.2.2)
          | (rename_i hv; exact hf _ (by simpa using hv))
          | (rename_i hv; exact hf _ (hneg _ (by simpa using hv)))
    | arr xs =>
      unfold doc
      split
      · exact .leaf _ (hQ.app [0x5B] [0x5D] hl.1 hl.2.1)
      · refine .arr _ ?_
        intro x hx
        obtain ⟨i, hi⟩ := List.mem_iff_getElem?.1 hx
        rw [docElems_get] at hi
        obtain ⟨y, hy, rfl⟩ := Option.map_eq_some_iff.1 hi
        exact ihk y (List.mem_of_getElem? hy) _
    | obj n kvs low =>
      by_cases h0 : kvs = []
      · subst h0; simp only [doc, List.length_nil, if_true]; exact .leaf _ (hQ.app [0x7B] [0x7D] hl.2.2.1 hl.2.2.2.1)
      · rw [doc_obj _ _ _ _ h0]
        have hm : ∀ m ∈ docMems o T par false ((sorted S o par kvs).map fun e => (e, doc E S o T e.v)), Q (DMem.key m) ∧ DocAll Q (DMem.v m) := by
          intro m hm
          obtain ⟨i, hi⟩ := List.mem_iff_getElem?.1 hm
          obtain ⟨e, he, h1, h2⟩ := docMems_get _ _ _ _ hi
          rw [h1, h2]
          have hek : e ∈ kvs := by
            refine sorted_mem (S := S) (o := o) (par := par) ?_
            have := List.mem_of_getElem? he
            unfold shown at this
            split at this
            · exact (List.mem_filter.1 this).1
            · exact this
          refine ⟨hs _ (her_self hn e hek), ihk e.v ⟨e, hek, rfl⟩ _⟩
        exact .obj _ (fun m h => (hm m h).1) fun m h => (hm m h).2

theorem text_closing {Q P : Bytes → Prop} (hQ : Closing Q) {d : Opt} {opts : List MOpt} (hl : LayoutOK Q (optOf d opts).indent)
    (hw : Q nullText ∧ Q (formatBool true) ∧ Q (formatBool false) ∧ Q [0x4E, 0x61, 0x4E] ∧ Q [0x2B, 0x49, 0x6E, 0x66] ∧ Q [0x2D, 0x49, 0x6E, 0x66])
    (hs : ∀ s, P s → Q (escText (escOf d opts) s)) (ho : P (optOf d opts).nanToString ∧ P (optOf d opts).infPos ∧ P (infNegString (optOf d opts))) (hf : ∀ f, isValidFloat f = true → Q (E.jsonFloat f)) {v : V} (hv : Marshalable v) (hn : Her (NumTexts Q P) v)
    {b : Bytes} (h : marshal E S d v opts = .ok (b, none)) : Q b := by
  obtain ⟨-, rfl⟩ := marshal_ok hv h
  have hl0 : LayoutOK Q none := ⟨hl.1, hl.2.1, hl.2.2.1, hl.2.2.2.1, hl.2.2.2.2.1, hl.2.2.2.2.2.1, hl.2.2.2.2.2.2.1, by simp⟩
  exact print_closing hQ hl (doc_all hQ hl0 hw hs ho hf v hv.1 hn none) 0

theorem closing_bytes (P : UInt8 → Prop) : Closing (fun s => ∀ c ∈ s, P c) where
  nil := by simp
  app a b ha hb c hc := by rcases List.mem_append.1 hc with h | h; exact ha c h; exact hb c h

/-- texts that are UTF-8 with code points satisfying `P` -/
def CodeText (P : Nat → Prop) (s : Bytes) : Prop := ∃ rs : List Nat, (∀ r ∈ rs, Scalar r ∧ P r) ∧ s = rs.flatMap utf8

theorem closing_code (P : Nat → Prop) : Closing (CodeText P) where
  nil := ⟨[], by simp, rfl⟩
  app a b := by
    rintro ⟨rs, h1, rfl⟩ ⟨rs', h2, rfl⟩
    exact ⟨rs ++ rs', fun r hr => by rcases List.mem_append.1 hr with h | h; exact h1 r h; exact h2 r h, by simp⟩

theorem codeText_ascii {P : Nat → Prop} {s : Bytes} (h : ∀ c ∈ s, c.toNat < 0x80 ∧ P c.toNat) : CodeText P s := by
  refine ⟨s.map UInt8.toNat, ?_, ?_⟩
  · intro r hr
    obtain ⟨c, hc, rfl⟩ := List.mem_map.1 hr
    exact ⟨.inl (by have := (h c hc).1; omega), (h c hc).2⟩
  · induction s with
    | nil => rfl
    | cons c s ih =>
      rw [List.map_cons, List.flatMap_cons, ← ih fun x hx => h x (by simp [hx]), utf8_ascii (h c (by simp)).1]
      simp

theorem codeText_char {P : Nat → Prop} {r : Nat} (h : Scalar r) (hp : P r) : CodeText P (utf8 r) := ⟨[r], by simp [h, hp], by simp⟩

theorem closing_flatMap {Q : Bytes → Prop} (hQ : Closing Q) {f : Nat → Bytes} : ∀ rs : List Nat, (∀ r ∈ rs, Q (f r)) → Q (rs.flatMap f)
  | [], _ => hQ.nil
  | r :: rs, h => by rw [List.flatMap_cons]; exact hQ.app _ _ (h r (by simp)) (closing_flatMap hQ rs fun x hx => h x (by simp [hx]))

/-- plain visible ASCII -/
def Vis (c : UInt8) : Prop := 0x20 ≤ c.toNat ∧ c.toNat < 0x7F

theorem uText_vis {u : Nat} (h : u < 0x10000) : ∀ c ∈ uText u, Vis c ∧ c ≠ 0x3C ∧ c ≠ 0x3E ∧ c ≠ 0x26 := by
  have dig : ∀ n, n < 16 → (let c : UInt8 := if n < 10 then UInt8.ofNat (0x30 + n) else UInt8.ofNat (0x37 + n); (0x20 ≤ c.toNat ∧ c.toNat < 0x7F) ∧ c ≠ 0x3C ∧ c ≠ 0x3E ∧ c ≠ 0x26) := by decide
  intro c hc
  simp only [uText, List.mem_cons, List.not_mem_nil, or_false] at hc
  unfold Vis
  rcases hc with rfl | rfl | rfl | rfl | rfl | rfl
  · decide
  · decide
  · exact dig _ (by omega)
  · exact dig _ (by omega)
  · exact dig _ (by omega)
  · exact dig _ (by omega)

/-- the default escapes -/
theorem escSpec_ascii (slash : Bool) (html : Bool) {r : Nat} (hr : Scalar r) : ∀ c ∈ escSpec false html slash r,
    (Vis c ∨ c = 0x0B) ∧ (html = true → c ≠ 0x3C ∧ c ≠ 0x3E ∧ c ≠ 0x26) := by
  by_cases h : r < 0x80
  · have : ∀ slash html, ∀ r, r < 0x80 → ∀ c ∈ escSpec false html slash r, ((0x20 ≤ c.toNat ∧ c.toNat < 0x7F) ∨ c = 0x0B) ∧ (html = true → c ≠ 0x3C ∧ c ≠ 0x3E ∧ c ≠ 0x26) := by decide +kernel
    exact this slash html r h
  · intro c hc
    have hr' : r < 0x110000 := by unfold Scalar at hr; omega
    rw [escSpec_high _ _ _ h, if_neg (by simp)] at hc
    have : Vis c ∧ c ≠ 0x3C ∧ c ≠ 0x3E ∧ c ≠ 0x26 := by
      split at hc
      · exact uText_vis (by assumption) c hc
      · rcases List.mem_append.1 hc with hc | hc
        · exact uText_vis (by omega) c hc
        · exact uText_vis (by omega) c hc
    exact ⟨.inl this.1, fun _ => this.2⟩

theorem escSpec_code (html slash : Bool) {r : Nat} (hr : Scalar r) : CodeText (fun x => x ≠ 0x2028 ∧ x ≠ 0x2029) (escSpec true html slash r) := by
  by_cases h : r < 0x80
  · have : ∀ slash html, ∀ r, r < 0x80 → ∀ c ∈ escSpec true html slash r, c.toNat < 0x80 := by decide +kernel
    refine codeText_ascii fun c hc => ?_
    have := this slash html r h c hc
    exact ⟨this, by omega, by omega⟩
  · have hr' : r < 0x110000 := by unfold Scalar at hr; omega
    have hu : ∀ u, u < 0x10000 → CodeText (fun x => x ≠ 0x2028 ∧ x ≠ 0x2029) (uText u) := fun u hu => codeText_ascii fun c hc => by
      have := (uText_vis hu c hc).1; unfold Vis at this; omega
    rw [escSpec_high _ _ _ h]
    split
    · rename_i hx; exact codeText_char hr ⟨hx.2.1, hx.2.2⟩
    split
    · exact hu _ (by assumption)
    · exact (closing_code _).app _ _ (hu _ (by omega)) (hu _ (by omega))

/-! numbers of an accepted text -/

theorem lval_nums {num : Bytes → Prop} {t : Bytes} {j : J} (h : LVal num t j) : j.AllNums num := by
  refine @LVal.rec num (fun _ j _ => j.AllNums num) (fun _ js _ => AllNumsL num js) (fun _ ms _ => AllNumsM num ms) ?_ ?_ ?_ ?_ ?_ ?_ ?_ ?_ ?_ ?_ ?_ t j h
  · trivial
  · trivial
  · trivial
  · intro t ht; exact ht
  · intro t d _; trivial
  · intro t xs _ ih; exact ih
  · intro t ms _ ih; exact ih
  · intro s _; trivial
  · intro s t ts v vs _ _ _ _ ih ihs; exact ⟨ih, ihs⟩
  · intro s _; trivial
  · intro s k b1 b2 t ts d v vs _ _ _ _ _ _ _ ih ihs; exact ⟨ih, ihs⟩

end JV
