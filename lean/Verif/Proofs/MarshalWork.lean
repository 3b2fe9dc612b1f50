import Verif.Model.MarshalWork
import Verif.Spec.MarshalWork
import Verif.Spec.Work
import Verif.Proofs.Size
/-!
The work of Marshal against the length of its text.
-/
namespace JV
open Spec

variable {E : Env} {S : SortFn} {o : Opt}

@[simp] theorem mwork_ops_seq (a b : Work) : (a.seq b).ops = a.ops + b.ops := rfl
@[simp] theorem mwork_ops_tick (n : Nat) : (Work.tick n).ops = n := rfl
@[simp] theorem mwork_ops_call (a : Work) : a.call.ops = a.ops := rfl
@[simp] theorem mwork_depth_seq (a b : Work) : (a.seq b).depth = max a.depth b.depth := rfl
@[simp] theorem mwork_depth_tick (n : Nat) : (Work.tick n).depth = 0 := rfl
@[simp] theorem mwork_depth_call (a : Work) : a.call.depth = a.depth + 1 := rfl

theorem escFn_ge (b : UInt8) (f : EscFn) : 1 ≤ (f.run b).length := by cases f <;> simp [EscFn.run]

theorem utf8_encode {r : Nat} (h : r ≤ 0x10FFFF) : (utf8 r).length ≤ (encodeRune r).length := by
  unfold utf8 encodeRune
  repeat' split
  all_goals first | (simp; done) | omega

theorem escRune_ge (T : Escaper) {r : Nat} (hr : r ≤ 0x10FFFF) : (utf8 r).length ≤ (escRune T r).length := by
  unfold escRune
  split
  · rename_i h
    have : (utf8 r).length = 1 := by unfold utf8; rw [if_pos (by omega)]; rfl
    have := escFn_ge (UInt8.ofNat r) (T.ascii r)
    omega
  · have h4 := utf8_length_le (r := r)
    have h16 : (utf8 r).length ≤ (escUTF16 r).length := by
      unfold escUTF16
      split
      · rw [fmtU4_length]; omega
      · simp only [List.length_append, fmtU4_length]; omega
    split
    · unfold escUTF8
      split
      · exact h16
      · exact utf8_encode hr
    · exact h16

theorem decodes_ge (T : Escaper) {s : Bytes} {rs : List Nat} (h : Decodes s rs) : s.length ≤ (rs.flatMap (escRune T)).length := by
  induction h with
  | nil => simp
  | char r t rs hr _ ih => simp only [List.flatMap_cons, List.length_append]; have := escRune_ge T (r := r) (by unfold Scalar at hr; omega); omega
  | bad b t rs _ _ ih =>
    simp only [List.flatMap_cons, List.length_append, List.length_cons]
    have : 1 ≤ (utf8 0xFFFD).length := by decide
    have := escRune_ge T (r := 0xFFFD) (by decide)
    omega

/-- what is written for a string is not shorter than the string -/
theorem escapeString_ge {t : Option Escaper} {s b : Bytes} (h : escapeString t s = .ok b) : s.length ≤ b.length := by
  cases t with
  | some T => simp only [escapeString, R.ok.injEq] at h; subst h; exact decodes_ge T (Decodes_runes s)
  | none =>
    simp only [escapeString] at h
    split at h
    · rename_i h0
      cases s with
      | nil => simp
      | cons c t => simp [runes, runesF] at h0
    · cases h

theorem writeEscaped_work {s : Bytes} {st st' : MSt} (h : writeEscaped o s st = .ok st') :
    st'.cnt = st.cnt ∧ ∃ k, st'.buf.length = st.buf.length + k ∧ escWork o s ≤ 2 * k ∧ k ≤ escWork o s := by
  unfold writeEscaped at h
  unfold escWork
  cases hb : escapeString o.escaper s with
  | ok b =>
    rw [hb] at h
    simp only [R.bind_ok, R.pure_eq, R.ok.injEq] at h
    subst h
    have := escapeString_ge hb
    exact ⟨rfl, b.length, by simp [MSt.w], by simp only; omega, by simp only; omega⟩
  | err e => rw [hb] at h; cases h
  | panic => rw [hb] at h; cases h
  | diverge => rw [hb] at h; cases h

theorem writeQuoted_work {s : Bytes} {st st' : MSt} (h : writeQuoted o s st = .ok st') :
    st'.cnt = st.cnt ∧ ∃ k, st'.buf.length = st.buf.length + k ∧ quotedWork o s ≤ 2 * k ∧ k ≤ quotedWork o s := by
  unfold writeQuoted at h
  cases hw : writeEscaped o s (st.w [0x22]) with
  | ok s1 =>
    rw [hw] at h
    simp only [R.bind_ok, R.pure_eq, R.ok.injEq] at h
    subst h
    obtain ⟨h1, k, h2, h3, h4⟩ := writeEscaped_work hw
    refine ⟨h1, k + 2, ?_, ?_, ?_⟩
    · simp only [MSt.w, List.length_append, List.length_cons, List.length_nil] at h2 ⊢; omega
    · unfold quotedWork; omega
    · unfold quotedWork; omega
  | err e => rw [hw] at h; cases h
  | panic => rw [hw] at h; cases h
  | diverge => rw [hw] at h; cases h

/-- `w` counts the work of a step from `st` to `st'`, which takes at most `c` for a byte and `l` more -/
def Paid (c l : Nat) (w : Nat) (st st' : MSt) : Prop := st'.cnt = st.cnt ∧ ∃ k, st'.buf.length = st.buf.length + k ∧ w ≤ c * k + l ∧ k ≤ w

theorem paid_w {c : Nat} (hc : 2 ≤ c) (st : MSt) (bs : Bytes) (w : Nat) (h1 : w ≤ 2 * bs.length) (h2 : bs.length ≤ w) : Paid c 0 w st (st.w bs) :=
  ⟨rfl, bs.length, by simp [MSt.w], by have := Nat.mul_le_mul_right bs.length hc; omega, h2⟩

theorem paid_refl (c : Nat) (st : MSt) : Paid c 0 0 st st := ⟨rfl, 0, by simp, by simp, by simp⟩

theorem Paid.trans {c l l' w w' : Nat} {a b d : MSt} (h1 : Paid c l w a b) (h2 : Paid c l' w' b d) : Paid c (l + l') (w + w') a d := by
  obtain ⟨a1, k1, a2, a3, a4⟩ := h1
  obtain ⟨b1, k2, b2, b3, b4⟩ := h2
  exact ⟨b1.trans a1, k1 + k2, by omega, by rw [Nat.mul_add]; omega, by omega⟩

theorem paid_quoted {c : Nat} (hc : 2 ≤ c) {s : Bytes} {st st' : MSt} (h : writeQuoted o s st = .ok st') : Paid c 0 (quotedWork o s) st st' := by
  obtain ⟨h1, k, h2, h3, h4⟩ := writeQuoted_work h
  exact ⟨h1, k, h2, by have := Nat.mul_le_mul_right k hc; omega, h4⟩

theorem paid_escaped {c : Nat} (hc : 2 ≤ c) {s : Bytes} {st st' : MSt} (h : writeEscaped o s st = .ok st') : Paid c 0 (escWork o s) st st' := by
  obtain ⟨h1, k, h2, h3, h4⟩ := writeEscaped_work h
  exact ⟨h1, k, h2, by have := Nat.mul_le_mul_right k hc; omega, h4⟩

theorem ok_pair {a b : MSt} {e f : Option Err} (h : (R.ok (a, e) : MRet) = .ok (b, f)) : a = b := by
  simp only [R.ok.injEq, Prod.mk.injEq] at h; exact h.1

theorem paid_quoted_ret {c : Nat} (hc : 2 ≤ c) {s : Bytes} {st st' : MSt} {e : Option Err}
    (h : (do let st ← writeQuoted o s st; pure (st, none) : MRet) = .ok (st', e)) : Paid c 0 (quotedWork o s) st st' := by
  cases hw : writeQuoted o s st with
  | ok s1 => rw [hw] at h; have := ok_pair h; subst this; exact paid_quoted hc hw
  | err e => rw [hw] at h; cases h
  | panic => rw [hw] at h; cases h
  | diverge => rw [hw] at h; cases h

theorem paid_number {c : Nat} (hc : 2 ≤ c) {src : Bytes} {n : Num} {st st' : MSt} {e : Option Err} (h : marshalNumber E o src n st = .ok (st', e)) :
    Paid c 0 (numberWork E o src n) st st' := by
  unfold marshalNumber at h
  unfold numberWork
  split at h
  · rename_i h0; rw [if_pos h0]; have := ok_pair h; subst this; exact paid_w hc _ _ _ (by omega) (by omega)
  · rename_i h0
    rw [if_neg h0]
    split at h
    · rename_i h1
      rw [if_pos h1]
      unfold marshalInfP at h
      unfold infPWork
      (repeat' split at h) <;> (try simp_all only [if_true, if_false]) <;>
        first
        | (have := ok_pair h; subst this; first | exact paid_refl _ _ | exact paid_w hc _ _ _ (by simp [nullText] <;> omega) (by simp [nullText] <;> omega))
        | exact paid_quoted_ret hc h
    · rename_i h1
      rw [if_neg h1]
      split at h
      · rename_i h2
        rw [if_pos h2]
        unfold marshalInfN at h
        unfold infNWork
        (repeat' split at h) <;> (try simp_all only [if_true, if_false]) <;>
          first
          | (have := ok_pair h; subst this; first | exact paid_refl _ _ | exact ((paid_w hc _ [0x22] 1 (by decide) (by decide)).trans (paid_w hc _ [0x2D, 0x49, 0x6E, 0x66] 4 (by decide) (by decide))).trans (paid_w hc _ [0x22] 1 (by decide) (by decide)) | exact paid_w hc _ _ _ (by simp [nullText] <;> omega) (by simp [nullText] <;> omega))
          | exact paid_quoted_ret hc h
      · rename_i h2
        rw [if_neg h2]
        unfold marshalNaN at h
        unfold nanWork
        (repeat' split at h) <;> (try simp_all only [if_true, if_false]) <;>
          first
          | (have := ok_pair h; subst this; first | exact paid_refl _ _ | exact paid_w hc _ _ _ (by simp [nullText] <;> omega) (by simp [nullText] <;> omega))
          | exact paid_quoted_ret hc h

/-- a line break with `cnt` up to `D` costs at most `c` for a byte -/
def LinePaid (o : Opt) (c D : Nat) : Prop := ∀ st : MSt, st.cnt ≤ D → Paid c 0 (lineWork o st.cnt) st (newLine o st)

theorem flatten_replicate_length (n : Nat) (l : Bytes) : (List.replicate n l).flatten.length = n * l.length := by
  induction n with
  | zero => simp
  | succ n ih => rw [List.replicate_succ, List.flatten_cons, List.length_append, ih, Nat.succ_mul]; omega

theorem newLine_len (st : MSt) : (newLine o st).cnt = st.cnt ∧ (newLine o st).buf.length = st.buf.length +
    (match o.indent with | some (pre, ind) => 1 + pre.length + st.cnt * ind.length | none => 0) := by
  unfold newLine
  cases o.indent with
  | none => exact ⟨rfl, rfl⟩
  | some p =>
    obtain ⟨pre, ind⟩ := p
    simp only [writeIndent, MSt.w, List.length_append, flatten_replicate_length, List.length_cons, List.length_nil]
    exact ⟨trivial, by omega⟩

theorem linePaid_ind (h : ∀ pre, o.indent ≠ some (pre, [])) (D : Nat) : LinePaid o 2 D := by
  intro st _
  obtain ⟨h1, h2⟩ := newLine_len (o := o) st
  refine ⟨h1, _, h2, ?_, ?_⟩
  · unfold lineWork
    cases hi : o.indent with
    | none => simp
    | some p =>
      obtain ⟨pre, ind⟩ := p
      have : 1 ≤ ind.length := by
        cases ind with
        | nil => exact absurd hi (h pre)
        | cons c t => simp
      have := Nat.mul_le_mul_left st.cnt this
      simp only [Nat.mul_add, Nat.mul_one] at *
      omega
  · unfold lineWork
    cases o.indent with
    | none => simp
    | some p => obtain ⟨pre, ind⟩ := p; simp only [Nat.mul_add]; omega

theorem linePaid_any (o : Opt) (D : Nat) : LinePaid o (D + 2) D := by
  intro st hD
  obtain ⟨h1, h2⟩ := newLine_len (o := o) st
  refine ⟨h1, _, h2, ?_, ?_⟩
  · unfold lineWork
    cases hi : o.indent with
    | none => simp
    | some p =>
      obtain ⟨pre, ind⟩ := p
      have h3 : D * 1 ≤ D * (1 + pre.length + st.cnt * ind.length) := Nat.mul_le_mul_left D (by omega)
      simp only [Nat.mul_add, Nat.mul_one, Nat.add_mul] at *
      omega
  · unfold lineWork
    cases o.indent with
    | none => simp
    | some p => obtain ⟨pre, ind⟩ := p; simp only [Nat.mul_add]; omega

theorem sortMembers_unordered (ho : Unordered o) {β : Type} (par : Option ParentInfo) (kvs : List Ent) (ms : List (Ent × β)) : sortMembers S o par kvs ms = ms := by
  obtain ⟨h1, h2, h3⟩ := ho
  unfold sortMembers
  rw [h1]
  simp [h2, h3]

/-- null members in a list of members, if they are left out -/
def leftM (o : Opt) (es : List Ent) : Nat := if o.omitNull then nullMembersM es else 0
def leftL (o : Opt) (xs : List V) : Nat := if o.omitNull then nullMembersL xs else 0

theorem Paid.mono {c l l' w : Nat} {a b : MSt} (h : Paid c l w a b) (hl : l ≤ l') : Paid c l' w a b := by
  obtain ⟨h1, k, h2, h3, h4⟩ := h
  exact ⟨h1, k, h2, by omega, h4⟩

theorem Paid.of_cnt {c l w : Nat} {a b : MSt} {m m' : Nat} (h : Paid c l w { a with cnt := m } b) : Paid c l w a { b with cnt := a.cnt } := by
  obtain ⟨h1, k, h2, h3, h4⟩ := h
  exact ⟨rfl, k, h2, h3, h4⟩

mutual
theorem marshalTo_paid (ho : Unordered o) {c D : Nat} (hc : 2 ≤ c) (hL : LinePaid o c D) : ∀ (v : V) (par : Option ParentInfo) (st st' : MSt) (e : Option Err),
    marshalTo E S o v par st = .ok (st', e) → st.cnt + nesting v ≤ D → Paid c (passedOver o v) (marshalWork E o v st.cnt).ops st st'
  | .nilp, _, _, _, _, h, _ => by unfold marshalTo at h; cases h
  | .notExist, _, st, _, _, h, _ => by
    unfold marshalTo at h; have := ok_pair h; subst this
    exact (paid_refl c st).mono (by omega)
  | .str s, _, _, _, _, h, _ => by
    unfold marshalTo at h
    unfold marshalWork
    exact (paid_quoted_ret hc h).mono (by omega)
  | .num src n, _, _, _, _, h, _ => by
    unfold marshalTo at h
    unfold marshalWork
    exact (paid_number hc h).mono (by omega)
  | .bool b, _, _, _, _, h, _ => by
    unfold marshalTo at h; have := ok_pair h; subst this
    unfold marshalWork
    exact (paid_w hc _ _ _ (by simp only [mwork_ops_call, mwork_ops_tick]; omega) (by simp)).mono (by omega)
  | .null, _, _, _, _, h, _ => by
    unfold marshalTo at h; have := ok_pair h; subst this
    unfold marshalWork
    exact (paid_w hc _ _ _ (by decide) (by decide)).mono (by omega)
  | .arr xs, par, st, st', e, h, hD => by
    unfold marshalTo at h
    unfold marshalWork
    simp only at h
    split at h
    · rename_i h0
      rw [if_pos h0]
      have := ok_pair h; subst this
      exact (paid_w hc _ _ _ (by decide) (by decide)).mono (by omega)
    · rename_i h0
      rw [if_neg h0]
      have hn : nesting (.arr xs) = nestingL xs + 1 := rfl
      cases hm : marshalElems E S o (.arr xs) xs 0 par (MSt.w { st with cnt := st.cnt + 1 } [0x5B]) with
      | ok s1 =>
        rw [hm] at h
        simp only [R.bind_ok, R.pure_eq] at h
        have := ok_pair h; subst this
        obtain ⟨w, hw, h1⟩ := marshalElems_paid ho hc hL (.arr xs) xs 0 par _ s1 hm (by show st.cnt + 1 + nestingL xs ≤ D; omega)
        rw [if_pos ⟨rfl, by rintro rfl; exact h0 rfl⟩] at hw
        have hw : (elemsWork E o xs 0 (st.cnt + 1)).ops = w + 1 := hw
        have hcnt : s1.cnt = st.cnt + 1 := h1.1
        have h2 := hL { s1 with cnt := s1.cnt - 1 } (by show s1.cnt - 1 ≤ D; omega)
        have e1 : ({ s1 with cnt := s1.cnt - 1 } : MSt).cnt = st.cnt := by show s1.cnt - 1 = st.cnt; omega
        rw [e1] at h2
        have h3 := paid_w hc (newLine o { s1 with cnt := s1.cnt - 1 }) [0x5D] 1 (by decide) (by decide)
        have h0' : Paid c 0 2 st (MSt.w st [0x5B]) := paid_w hc st [0x5B] 2 (by decide) (by decide)
        have h1' : Paid c (leftL o xs) w (MSt.w st [0x5B]) { s1 with cnt := s1.cnt - 1 } := by
          obtain ⟨-, k, a2, a3, a4⟩ := h1
          exact ⟨e1, k, a2, a3, a4⟩
        have := ((h0'.trans h1').trans h2).trans h3
        refine cast ?_ this
        congr 1
        · simp only [leftL, passedOver, nullMembers]; omega
        · simp only [mwork_ops_call, mwork_ops_seq, mwork_ops_tick]; omega
      | err e => rw [hm] at h; cases h
      | panic => rw [hm] at h; cases h
      | diverge => rw [hm] at h; cases h
  | .obj i kvs low, par, st, st', e, h, hD => by
    unfold marshalTo at h
    unfold marshalWork
    simp only at h
    split at h
    · rename_i h0
      rw [if_pos h0]
      have := ok_pair h; subst this
      exact (paid_w hc _ _ _ (by decide) (by decide)).mono (by omega)
    · rename_i h0
      rw [if_neg h0]
      have hn : nesting (.obj i kvs low) = nestingM kvs + 1 := rfl
      rw [sortMembers_unordered ho] at h
      cases hm : writeMembers o par false (memberWriters E S o kvs) (MSt.w { st with cnt := st.cnt + 1 } [0x7B]) with
      | ok s1 =>
        rw [hm] at h
        simp only [R.bind_ok, R.pure_eq] at h
        have := ok_pair h; subst this
        have h1 := writeMembers_paid ho hc hL par false kvs _ s1 hm (by show st.cnt + 1 + nestingM kvs ≤ D; omega)
        have hcnt : s1.cnt = st.cnt + 1 := h1.1
        have h2 := hL { s1 with cnt := s1.cnt - 1 } (by show s1.cnt - 1 ≤ D; omega)
        have e1 : ({ s1 with cnt := s1.cnt - 1 } : MSt).cnt = st.cnt := by show s1.cnt - 1 = st.cnt; omega
        rw [e1] at h2
        have h3 := paid_w hc (newLine o { s1 with cnt := s1.cnt - 1 }) [0x7D] 1 (by decide) (by decide)
        have h0' : Paid c 0 1 st (MSt.w st [0x7B]) := paid_w hc st [0x7B] 1 (by decide) (by decide)
        have h1' : Paid c (leftM o kvs) (membersWork E o false kvs (st.cnt + 1)).ops (MSt.w st [0x7B]) { s1 with cnt := s1.cnt - 1 } := by
          obtain ⟨-, k, a2, a3, a4⟩ := h1
          exact ⟨e1, k, a2, a3, a4⟩
        have := ((h0'.trans h1').trans h2).trans h3
        refine cast ?_ this
        congr 1
        · simp only [leftM, passedOver, nullMembers]; omega
        · simp only [mwork_ops_call, mwork_ops_seq, mwork_ops_tick]; omega
      | err e => rw [hm] at h; cases h
      | panic => rw [hm] at h; cases h
      | diverge => rw [hm] at h; cases h
theorem marshalElems_paid (ho : Unordered o) {c D : Nat} (hc : 2 ≤ c) (hL : LinePaid o c D) (v : V) : ∀ (xs : List V) (i : Nat) (par : Option ParentInfo) (st st' : MSt),
    marshalElems E S o v xs i par st = .ok st' → st.cnt + nestingL xs ≤ D →
    ∃ w, (elemsWork E o xs i st.cnt).ops = w + (if i = 0 ∧ xs ≠ [] then 1 else 0) ∧ Paid c (leftL o xs) w st st'
  | [], i, _, st, st', h, _ => by
    unfold marshalElems at h
    simp only [R.ok.injEq] at h
    subst h
    exact ⟨0, by simp [elemsWork], (paid_refl c st).mono (by omega)⟩
  | x :: xs, i, par, st, st', h, hD => by
    unfold marshalElems at h
    simp only at h
    have hn : nestingL (x :: xs) = max (nesting x) (nestingL xs) := rfl
    have h0 : Paid c 0 (if i > 0 then 2 else 0) st (if i > 0 then st.w [0x2C] else st) := by
      split
      · exact paid_w hc _ _ _ (by decide) (by decide)
      · exact paid_refl _ _
    generalize hs0 : (if i > 0 then st.w [0x2C] else st) = s0 at h h0
    have hc0 : s0.cnt = st.cnt := h0.1
    have h1 := hL s0 (by omega)
    cases hm : marshalTo E S o x (if o.lessFunc.isSome = true then some (newParentInfo v par (intKey i)) else none) (newLine o s0) with
    | ok q =>
      obtain ⟨s1, e⟩ := q
      rw [hm] at h
      simp only [R.bind_ok] at h
      have hc1 : (newLine o s0).cnt = st.cnt := h1.1.trans hc0
      have h2 := marshalTo_paid ho hc hL x _ _ s1 e hm (by omega)
      have hc2 : s1.cnt = st.cnt := h2.1.trans hc1
      obtain ⟨w, hw, h3⟩ := marshalElems_paid ho hc hL v xs (i + 1) par s1 st' h (by omega)
      rw [if_neg (by omega), hc2] at hw
      rw [hc0] at h1
      rw [hc1] at h2
      refine ⟨(if i > 0 then 2 else 0) + lineWork o st.cnt + (marshalWork E o x st.cnt).ops + w, ?_, (((h0.trans h1).trans h2).trans h3).mono ?_⟩
      rotate_left
      · simp only [leftL, passedOver, nullMembersL]; split <;> omega
      · unfold elemsWork
        simp only [mwork_ops_seq, mwork_ops_tick, hw]
        by_cases hi : i > 0
        · rw [if_pos hi, if_pos hi, if_neg (by omega)]; omega
        · rw [if_neg hi, if_neg hi, if_pos ⟨by omega, by simp⟩]; omega
    | err e => rw [hm] at h; cases h
    | panic => rw [hm] at h; cases h
    | diverge => rw [hm] at h; cases h
theorem writeMembers_paid (ho : Unordered o) {c D : Nat} (hc : 2 ≤ c) (hL : LinePaid o c D) (par : Option ParentInfo) : ∀ (fw : Bool) (es : List Ent) (st st' : MSt),
    writeMembers o par fw (memberWriters E S o es) st = .ok st' → st.cnt + nestingM es ≤ D → Paid c (leftM o es) (membersWork E o fw es st.cnt).ops st st'
  | _, [], st, _, h, _ => by
    unfold memberWriters writeMembers at h
    simp only [R.ok.injEq] at h
    subst h
    exact (paid_refl c st).mono (by omega)
  | fw, ⟨k, i, v⟩ :: es, st, st', h, hD => by
    unfold memberWriters writeMembers at h
    simp only at h
    have hn : nestingM (⟨k, i, v⟩ :: es) = max (nesting v) (nestingM es) := rfl
    unfold membersWork
    have hnil : v ≠ .nilp := by
      rintro rfl
      simp [writeMember, Ent.v] at h
    cases hm : writeMember o (if o.lessFunc.isSome = true then some (newParentInfo v par (stringKey k)) else none) (!fw) ⟨k, i, v⟩ (marshalTo E S o v) st with
    | ok q =>
      obtain ⟨s1, wr⟩ := q
      simp only [Ent.v, Ent.key] at h
      rw [hm] at h
      simp only [R.bind_ok] at h
      have hm' : (if isNullV v && o.omitNull then (R.ok (st, false) : R (MSt × Bool)) else do
          let st := if !fw then st else st.w [0x2C]
          let st := newLine o st
          let st := st.w [0x22]
          let st ← writeEscaped o k st
          let st := st.w (if o.indent.isSome then [0x22, 0x3A, 0x20] else [0x22, 0x3A])
          let (st, _) ← marshalTo E S o v (if o.lessFunc.isSome = true then some (newParentInfo v par (stringKey k)) else none) st
          pure (st, true)) = .ok (s1, wr) := by
        rw [← hm]
        unfold writeMember
        cases v <;> first | exact absurd rfl hnil | rfl
      split at hm'
      · rename_i hnull
        rw [if_pos hnull]
        simp only [R.ok.injEq, Prod.mk.injEq] at hm'
        obtain ⟨rfl, rfl⟩ := hm'
        have h3 := writeMembers_paid ho hc hL par false es st st' h (by omega)
        have h0 : Paid c 1 1 st st := ⟨rfl, 0, by simp, by simp, by simp⟩
        refine cast ?_ (h0.trans h3)
        rw [Bool.and_eq_true] at hnull
        have : v = .null := by cases v <;> simp_all [isNullV]
        subst this
        congr 1
        simp only [leftM, nullMembersM, hnull.2, if_true]
      · rename_i hnull
        rw [if_neg hnull]
        simp only at hm'
        have h0 : Paid c 0 (if fw then 1 else 0) st (if !fw then st else st.w [0x2C]) := by
          cases fw
          · exact paid_refl _ _
          · exact paid_w hc _ _ _ (by decide) (by decide)
        generalize hs0 : (if !fw then st else st.w [0x2C]) = s0 at hm' h0
        have hc0 : s0.cnt = st.cnt := h0.1
        have h1 := hL s0 (by omega)
        have hc1 : (newLine o s0).cnt = st.cnt := h1.1.trans hc0
        rw [hc0] at h1
        have h2 := paid_w hc (newLine o s0) [0x22] 2 (by decide) (by decide)
        cases hk : writeEscaped o k ((newLine o s0).w [0x22]) with
        | ok s2 =>
          rw [hk] at hm'
          simp only [R.bind_ok] at hm'
          have h3 := paid_escaped hc hk
          have h4 := paid_w hc s2 (if o.indent.isSome then [0x22, 0x3A, 0x20] else [0x22, 0x3A]) (if o.indent.isSome then 3 else 2)
            (by split <;> decide) (by split <;> decide)
          have hc4 : (s2.w (if o.indent.isSome then [0x22, 0x3A, 0x20] else [0x22, 0x3A])).cnt = st.cnt := (h3.1.trans h2.1).trans hc1
          cases hv : marshalTo E S o v (if o.lessFunc.isSome = true then some (newParentInfo v par (stringKey k)) else none)
              (s2.w (if o.indent.isSome then [0x22, 0x3A, 0x20] else [0x22, 0x3A])) with
          | ok q =>
            obtain ⟨s5, e⟩ := q
            rw [hv] at hm'
            simp only [R.bind_ok, R.pure_eq, R.ok.injEq, Prod.mk.injEq] at hm'
            obtain ⟨rfl, rfl⟩ := hm'
            have h5 := marshalTo_paid ho hc hL v _ _ s5 e hv (by omega)
            have hc5 : s5.cnt = st.cnt := h5.1.trans hc4
            rw [hc4] at h5
            have h6 := writeMembers_paid ho hc hL par true es s5 st' h (by omega)
            rw [hc5] at h6
            refine cast ?_ ((((((h0.trans h1).trans h2).trans h3).trans h4).trans h5).trans h6)
            congr 1
            · simp only [leftM, passedOver, nullMembersM]
              by_cases ho' : o.omitNull = true
              · rw [if_pos ho', if_pos ho', if_pos ho']
                rw [ho', Bool.and_true] at hnull
                have : v ≠ .null := by rintro rfl; exact hnull rfl
                cases v <;> first | exact absurd rfl this | (simp; done)
              · rw [if_neg ho', if_neg ho', if_neg ho']
            · simp only [mwork_ops_seq, mwork_ops_tick]
              omega
          | err e => rw [hv] at hm'; cases hm'
          | panic => rw [hv] at hm'; cases hm'
          | diverge => rw [hv] at hm'; cases hm'
        | err e => rw [hk] at hm'; cases hm'
        | panic => rw [hk] at hm'; cases hm'
        | diverge => rw [hk] at hm'; cases hm'
    | err e => simp only [Ent.v, Ent.key] at h; rw [hm] at h; cases h
    | panic => simp only [Ent.v, Ent.key] at h; rw [hm] at h; cases h
    | diverge => simp only [Ent.v, Ent.key] at h; rw [hm] at h; cases h
end

end JV

namespace JV
open Spec
variable {E : Env} {o : Opt}

mutual
/-- Marshal's calls nest as the value does -/
theorem marshalWork_depth : ∀ (v : V) (cnt : Nat), nesting v ≤ (marshalWork E o v cnt).depth ∧ (marshalWork E o v cnt).depth ≤ nesting v + 1 ∧ 1 ≤ (marshalWork E o v cnt).depth
  | .nilp, _ => by simp [marshalWork, nesting]
  | .notExist, _ => by simp [marshalWork, nesting]
  | .str s, _ => by simp [marshalWork, nesting]
  | .num src n, _ => by simp [marshalWork, nesting]
  | .bool b, _ => by simp [marshalWork, nesting]
  | .null, _ => by simp [marshalWork, nesting]
  | .arr xs, cnt => by
    unfold marshalWork nesting
    have := elemsWork_depth xs 0 (cnt + 1)
    split
    · rename_i h0
      have : xs = [] := List.length_eq_zero_iff.1 h0
      subst this
      simp [nestingL]
    · simp only [mwork_depth_call, mwork_depth_seq, mwork_depth_tick]; omega
  | .obj _ kvs _, cnt => by
    unfold marshalWork nesting
    have := membersWork_depth false kvs (cnt + 1)
    split
    · rename_i h0
      have : kvs = [] := List.length_eq_zero_iff.1 h0
      subst this
      simp [nestingM]
    · simp only [mwork_depth_call, mwork_depth_seq, mwork_depth_tick]; omega
theorem elemsWork_depth : ∀ (xs : List V) (i cnt : Nat), nestingL xs ≤ (elemsWork E o xs i cnt).depth ∧ (elemsWork E o xs i cnt).depth ≤ nestingL xs + 1
  | [], _, _ => by simp [elemsWork, nestingL]
  | x :: xs, i, cnt => by
    unfold elemsWork nestingL
    have h1 := marshalWork_depth x cnt
    have h2 := elemsWork_depth xs (i + 1) cnt
    simp only [mwork_depth_seq, mwork_depth_tick]; omega
theorem membersWork_depth : ∀ (fw : Bool) (es : List Ent) (cnt : Nat), nestingM es ≤ (membersWork E o fw es cnt).depth ∧ (membersWork E o fw es cnt).depth ≤ nestingM es + 1
  | _, [], _ => by simp [membersWork, nestingM]
  | fw, ⟨k, i, v⟩ :: es, cnt => by
    unfold membersWork nestingM
    have h1 := marshalWork_depth v cnt
    have h2 := membersWork_depth false es cnt
    have h3 := membersWork_depth true es cnt
    split
    · rename_i h
      rw [Bool.and_eq_true] at h
      have : nesting v = 0 := by cases v <;> simp_all [isNullV, nesting]
      simp only [mwork_depth_seq, mwork_depth_tick]; omega
    · simp only [mwork_depth_seq, mwork_depth_tick]; omega
end

mutual
theorem nullMembers_weight : ∀ v : V, nullMembers v ≤ weight v
  | .nilp => by simp [nullMembers]
  | .notExist => by simp [nullMembers]
  | .str s => by simp [nullMembers]
  | .num src n => by simp [nullMembers]
  | .bool b => by simp [nullMembers]
  | .null => by simp [nullMembers]
  | .arr xs => by unfold nullMembers weight; have := nullMembersL_weight xs; omega
  | .obj _ kvs _ => by unfold nullMembers weight; have := nullMembersM_weight kvs; omega
theorem nullMembersL_weight : ∀ xs : List V, nullMembersL xs ≤ weightL xs
  | [] => by simp [nullMembersL]
  | x :: xs => by unfold nullMembersL weightL; have := nullMembers_weight x; have := nullMembersL_weight xs; omega
theorem nullMembersM_weight : ∀ es : List Ent, nullMembersM es ≤ weightM es
  | [] => by simp [nullMembersM]
  | ⟨k, i, v⟩ :: es => by
    unfold nullMembersM weightM
    have := nullMembers_weight v
    have := nullMembersM_weight es
    split <;> simp only [if_true, Bool.false_eq_true, if_false] <;> omega
end

/-- `n` arrays in an array -/
def nestV : Nat → V
  | 0 => .arr []
  | n + 1 => .arr [nestV n]

theorem nestV_work (pre : Bytes) (hi : o.indent = some (pre, [])) : ∀ n cnt, (marshalWork E o (nestV n) cnt).ops = 2 + n * (5 + 2 * pre.length + n + 2 * cnt)
  | 0, cnt => by simp [nestV, marshalWork]
  | n + 1, cnt => by
    have ih := nestV_work pre hi n (cnt + 1)
    have h1 : (({} : Work).ops) = 0 := rfl
    rw [nestV, marshalWork, if_neg (by simp)]
    simp only [elemsWork, mwork_ops_call, mwork_ops_seq, mwork_ops_tick, lineWork, hi, ih, h1, Nat.lt_irrefl, if_false, gt_iff_lt, List.length_nil]
    simp only [Nat.add_mul, Nat.mul_add, Nat.mul_one, Nat.one_mul, Nat.zero_add, Nat.add_zero]
    omega

end JV
