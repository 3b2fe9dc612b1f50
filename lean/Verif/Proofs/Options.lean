import Verif.Proofs.MarshalApi
/-! How options combine. -/
namespace JV
open Spec

theorem escHas_set : ∀ e : BitVec 8, (∀ m, m < 8 → escHas (escSet e m) m = true) ∧ (∀ m, m < 8 → escHas (escClear e m) m = false) ∧
    (∀ m, m < 8 → ∀ k, k < 8 → k ≠ m → escHas (escSet e m) k = escHas e k) ∧ (∀ m, m < 8 → ∀ k, k < 8 → k ≠ m → escHas (escClear e m) k = escHas e k) := by decide +kernel

theorem escHas_zero : escHas 0 escapeUTF8 = false ∧ escHas 0 escapeWithoutHTML = false ∧ escHas 0 escapeIgnoreSlash = false := by decide

theorem lastSet_nil {α : Type} (f : MOpt → Option α) (a : α) : lastSet f [] a = a := rfl
theorem lastSet_cons {α : Type} (f : MOpt → Option α) (op : MOpt) (os : List MOpt) (a : α) : lastSet f (op :: os) a = lastSet f os ((f op).getD a) := rfl
theorem lastSet_append {α : Type} (f : MOpt → Option α) (l os : List MOpt) (a : α) : lastSet f (l ++ os) a = lastSet f os (lastSet f l a) := by simp [lastSet]

/-- a field that changes only as the setting says follows `lastSet` -/
theorem fold_field {α : Type} (g : Opt → α) (f : MOpt → Option α) (h : ∀ o op, g (MOpt.mergeTo o op) = (f op).getD (g o)) :
    ∀ (os : List MOpt) (o : Opt), g (os.foldl MOpt.mergeTo o) = lastSet f os (g o)
  | [], _ => rfl
  | op :: os, o => by rw [List.foldl_cons, fold_field g f h os, lastSet_cons, h]

/-- how the members are ordered, as marshalObject finds out -/
def orderOf (o : Opt) : Order :=
  match o.lessFunc, o.keySeq, o.bySetSeq with
  | some f, _, _ => .less f
  | none, s :: seq, _ => .keys (s :: seq)
  | none, [], true => .bySet
  | none, [], false => .any

section
variable (o : Opt) (op : MOpt)
theorem merge_omit : (MOpt.mergeTo o op).omitNull = (setsOmitNull op).getD o.omitNull := by cases op with | less f => cases f <;> rfl | _ => rfl
theorem merge_nan : (MOpt.mergeTo o op).nanType = (setsNaN op).getD o.nanType := by cases op with | less f => cases f <;> rfl | _ => rfl
theorem merge_nanS : (MOpt.mergeTo o op).nanToString = (setsNaNStr op).getD o.nanToString := by cases op with | less f => cases f <;> rfl | _ => rfl
theorem merge_nanF : (MOpt.mergeTo o op).nanToFloat = (setsNaNFloat op).getD o.nanToFloat := by cases op with | less f => cases f <;> rfl | _ => rfl
theorem merge_inf : (MOpt.mergeTo o op).infType = (setsInf op).getD o.infType := by cases op with | less f => cases f <;> rfl | _ => rfl
theorem merge_infS : ((MOpt.mergeTo o op).infPos, (MOpt.mergeTo o op).infNeg) = (setsInfStr op).getD (o.infPos, o.infNeg) := by cases op with | less f => cases f <;> rfl | _ => rfl
theorem merge_infF : (MOpt.mergeTo o op).infToFloat = (setsInfFloat op).getD o.infToFloat := by cases op with | less f => cases f <;> rfl | _ => rfl
theorem merge_indent : (MOpt.mergeTo o op).indent = (setsIndent op).getD o.indent := by cases op with | less f => cases f <;> rfl | _ => rfl
theorem merge_order : orderOf (MOpt.mergeTo o op) = (setsOrder op).getD (orderOf o) := by
  cases op with
  | less f => cases f <;> rfl
  | keySeq s => cases s <;> rfl
  | opt _ lf seq => cases lf <;> cases seq <;> rfl
  | _ => rfl
theorem merge_utf8 : escHas (MOpt.mergeTo o op).escProps escapeUTF8 = (setsUTF8 op).getD (escHas o.escProps escapeUTF8) := by
  have h := escHas_set o.escProps
  cases op with
  | less f => cases f <;> rfl
  | utf8 => exact h.1 0 (by decide)
  | escapeHTML b => cases b; exact h.2.2.1 1 (by decide) 0 (by decide) (by decide); exact h.2.2.2 1 (by decide) 0 (by decide) (by decide)
  | escapeSlash b => cases b; exact h.2.2.1 2 (by decide) 0 (by decide) (by decide); exact h.2.2.2 2 (by decide) 0 (by decide) (by decide)
  | opt => exact escHas_zero.1
  | _ => rfl
theorem merge_html : (!escHas (MOpt.mergeTo o op).escProps escapeWithoutHTML) = (setsHTML op).getD (!escHas o.escProps escapeWithoutHTML) := by
  have h := escHas_set o.escProps
  cases op with
  | less f => cases f <;> rfl
  | utf8 => exact congrArg _ (h.2.2.1 0 (by decide) 1 (by decide) (by decide))
  | escapeHTML b => cases b; exact congrArg _ (h.1 1 (by decide)); exact congrArg _ (h.2.1 1 (by decide))
  | escapeSlash b => cases b; exact congrArg _ (h.2.2.1 2 (by decide) 1 (by decide) (by decide)); exact congrArg _ (h.2.2.2 2 (by decide) 1 (by decide) (by decide))
  | opt => exact congrArg _ escHas_zero.2.1
  | _ => rfl
theorem merge_slash : (!escHas (MOpt.mergeTo o op).escProps escapeIgnoreSlash) = (setsSlash op).getD (!escHas o.escProps escapeIgnoreSlash) := by
  have h := escHas_set o.escProps
  cases op with
  | less f => cases f <;> rfl
  | utf8 => exact congrArg _ (h.2.2.1 0 (by decide) 2 (by decide) (by decide))
  | escapeHTML b => cases b; exact congrArg _ (h.2.2.1 1 (by decide) 2 (by decide) (by decide)); exact congrArg _ (h.2.2.2 1 (by decide) 2 (by decide) (by decide))
  | escapeSlash b => cases b; exact congrArg _ (h.1 2 (by decide)); exact congrArg _ (h.2.1 2 (by decide))
  | opt => exact congrArg _ escHas_zero.2.2
  | _ => rfl
end

theorem fold_cache : ∀ (os : List MOpt) (o : Opt), o.keySeqCache = none → (os.foldl MOpt.mergeTo o).keySeqCache = none
  | [], _, h => h
  | op :: os, o, h => fold_cache os _ (by
    cases op with
    | less f => cases f; exact h; rfl
    | _ => first | rfl | exact h)

/-- everything Marshal looks at -/
structure Agree (o o' : Opt) : Prop where
  omitNull : o.omitNull = o'.omitNull
  order : orderOf o = orderOf o'
  cache : o.keySeqCache = o'.keySeqCache
  nan : o.nanType = o'.nanType ∧ o.nanToString = o'.nanToString ∧ o.nanToFloat = o'.nanToFloat
  inf : o.infType = o'.infType ∧ o.infPos = o'.infPos ∧ o.infNeg = o'.infNeg ∧ o.infToFloat = o'.infToFloat
  escaper : o.escaper = o'.escaper
  indent : o.indent = o'.indent

theorem orderOf_less {o : Opt} {f : LessFn} (h : orderOf o = .less f) : o.lessFunc = some f := by
  unfold orderOf at h; split at h <;> simp_all
theorem orderOf_keys {o : Opt} {s : List Bytes} (h : orderOf o = .keys s) : o.lessFunc = none ∧ o.keySeq = s ∧ s ≠ [] := by
  unfold orderOf at h; split at h <;> simp_all
  subst h; simp
theorem orderOf_bySet {o : Opt} (h : orderOf o = .bySet) : o.lessFunc = none ∧ o.keySeq = [] ∧ o.bySetSeq = true := by
  unfold orderOf at h; split at h <;> simp_all
theorem orderOf_any {o : Opt} (h : orderOf o = .any) : o.lessFunc = none ∧ o.keySeq = [] ∧ o.bySetSeq = false := by
  unfold orderOf at h; split at h <;> simp_all

theorem Agree.less {o o' : Opt} (h : Agree o o') : o.lessFunc = o'.lessFunc := by
  have := h.order
  cases h1 : orderOf o with
  | less f => rw [orderOf_less h1, orderOf_less (this ▸ h1)]
  | keys s => rw [(orderOf_keys h1).1, (orderOf_keys (this ▸ h1)).1]
  | bySet => rw [(orderOf_bySet h1).1, (orderOf_bySet (this ▸ h1)).1]
  | any => rw [(orderOf_any h1).1, (orderOf_any (this ▸ h1)).1]

theorem Agree.sort {o o' : Opt} (h : Agree o o') {β : Type} (S : SortFn) (par : Option ParentInfo) (kvs : List Ent) (ms : List (Ent × β)) :
    sortMembers S o par kvs ms = sortMembers S o' par kvs ms := by
  have e := h.order
  unfold sortMembers
  cases h1 : orderOf o with
  | less f => rw [orderOf_less h1, orderOf_less (e ▸ h1)]
  | keys s => rw [(orderOf_keys h1).1, (orderOf_keys (e ▸ h1)).1, (orderOf_keys h1).2.1, (orderOf_keys (e ▸ h1)).2.1]; simp only [Opt.sequence, h.cache, (orderOf_keys h1).2.1, (orderOf_keys (e ▸ h1)).2.1, if_pos (List.length_pos_iff.2 (orderOf_keys h1).2.2)]
  | bySet => rw [(orderOf_bySet h1).1, (orderOf_bySet (e ▸ h1)).1, (orderOf_bySet h1).2.1, (orderOf_bySet (e ▸ h1)).2.1, (orderOf_bySet h1).2.2, (orderOf_bySet (e ▸ h1)).2.2]; rfl
  | any => rw [(orderOf_any h1).1, (orderOf_any (e ▸ h1)).1, (orderOf_any h1).2.1, (orderOf_any (e ▸ h1)).2.1, (orderOf_any h1).2.2, (orderOf_any (e ▸ h1)).2.2]; rfl

theorem Agree.newLine {o o' : Opt} (h : Agree o o') : JV.newLine o = JV.newLine o' := by funext st; unfold JV.newLine; rw [h.indent]
theorem Agree.writeEscaped {o o' : Opt} (h : Agree o o') : JV.writeEscaped o = JV.writeEscaped o' := by funext s st; unfold JV.writeEscaped; rw [h.escaper]
theorem Agree.writeQuoted {o o' : Opt} (h : Agree o o') : JV.writeQuoted o = JV.writeQuoted o' := by funext s st; unfold JV.writeQuoted; rw [h.writeEscaped]
theorem Agree.number {o o' : Opt} (h : Agree o o') (E : Env) : marshalNumber E o = marshalNumber E o' := by
  funext src n st
  unfold marshalNumber marshalInfP marshalInfN marshalNaN infNegString
  rw [h.writeQuoted, h.nan.1, h.nan.2.1, h.nan.2.2, h.inf.1, h.inf.2.1, h.inf.2.2.1, h.inf.2.2.2]

theorem Agree.member {o o' : Opt} (h : Agree o o') : writeMember o = writeMember o' := by
  funext par first e wr st
  unfold writeMember
  rw [h.omitNull, h.newLine, h.writeEscaped, h.indent]

theorem Agree.members {o o' : Opt} (h : Agree o o') (par : Option ParentInfo) : ∀ (ms : List (Ent × Writer)) (fw : Bool) (st : MSt),
    writeMembers o par fw ms st = writeMembers o' par fw ms st
  | [], _, _ => rfl
  | (e, wr) :: ms, fw, st => by
    unfold writeMembers
    rw [h.member, h.less]
    have ih := h.members par ms
    simp only [ih]

theorem sort_mapped (S : SortFn) (o : Opt) (par : Option ParentInfo) (kvs : List Ent) {β : Type} {g g' : Ent → β} (h : ∀ e ∈ kvs, g e = g' e) :
    sortMembers S o par kvs (kvs.map fun e => (e, g e)) = sortMembers S o par kvs (kvs.map fun e => (e, g' e)) := by
  rw [sortMembers_map, sortMembers_map]
  exact List.map_congr_left fun e he => by rw [h e (sorted_mem he)]

theorem Agree.elems {o o' : Opt} (h : Agree o o') (E : Env) (S : SortFn) (v : V) : ∀ (xs : List V) (i : Nat) (par : Option ParentInfo) (st : MSt),
    (∀ x ∈ xs, marshalTo E S o x = marshalTo E S o' x) → marshalElems E S o v xs i par st = marshalElems E S o' v xs i par st
  | [], _, _, _, _ => by unfold marshalElems; rfl
  | x :: xs, i, par, st, hx => by
    conv => lhs; unfold marshalElems
    conv => rhs; unfold marshalElems
    rw [hx x (by simp), h.newLine, h.less]
    have ih := fun i par st => h.elems E S v xs i par st fun y hy => hx y (by simp [hy])
    simp only [ih]

/-- Marshal only depends on these. -/
theorem marshalTo_agree {o o' : Opt} (h : Agree o o') (E : Env) (S : SortFn) (v : V) : marshalTo E S o v = marshalTo E S o' v := by
  induction v using kid_ind with
  | step v ih =>
    funext par st
    cases v with
    | nilp => simp only [marshalTo]
    | notExist => simp only [marshalTo]
    | str s => simp only [marshalTo, h.writeQuoted]
    | num src n => simp only [marshalTo, h.number]
    | bool b => simp only [marshalTo]
    | null => simp only [marshalTo]
    | arr xs =>
      conv => lhs; unfold marshalTo
      conv => rhs; unfold marshalTo
      rw [h.newLine]
      have := fun i par st => h.elems E S (.arr xs) xs i par st fun x hx => ih x hx
      simp only [this]
    | obj n kvs low =>
      conv => lhs; unfold marshalTo
      conv => rhs; unfold marshalTo
      rw [h.newLine, memberWriters_map, memberWriters_map, h.sort, sort_mapped S o' par kvs (g' := fun e => marshalTo E S o' e.v) fun e he => ih _ ⟨e, he, rfl⟩]
      have := h.members par
      simp only [this]

theorem marshal_agree {d d' : Opt} {opts opts' : List MOpt} (h : Agree (optOf d opts) (optOf d' opts')) (E : Env) (S : SortFn) (v : V) :
    marshal E S d v opts = marshal E S d' v opts' := by
  unfold marshal
  cases v with
  | nilp => rfl
  | notExist => rfl
  | _ => simp only [show combineOptions d opts = optOf d opts from rfl, show combineOptions d' opts' = optOf d' opts' from rfl, marshalTo_agree h E S]

theorem escaper_eq {e e' : BitVec 8} (h0 : escHas e escapeUTF8 = escHas e' escapeUTF8) (h1 : escHas e escapeWithoutHTML = escHas e' escapeWithoutHTML)
    (h2 : escHas e escapeIgnoreSlash = escHas e' escapeIgnoreSlash) : parseEscapingFuncs e = parseEscapingFuncs e' := by
  unfold parseEscapingFuncs; rw [h0, h1, h2]

theorem opt_field {α : Type} (g : Opt → α) (f : MOpt → Option α) (h : ∀ o op, g (MOpt.mergeTo o op) = (f op).getD (g o)) (d : Opt) (os : List MOpt) :
    g (os.foldl MOpt.mergeTo d) = lastSet f os (g d) := fold_field g f h os d

theorem settings_agree {os os' : List MOpt} (h : SameSettings os os') : Agree (optOf emptyOptions os) (optOf emptyOptions os') := by
  have u := fun os => opt_field (fun o => escHas o.escProps escapeUTF8) _ merge_utf8 emptyOptions os
  have t := fun os => opt_field (fun o => !escHas o.escProps escapeWithoutHTML) _ merge_html emptyOptions os
  have sl := fun os => opt_field (fun o => !escHas o.escProps escapeIgnoreSlash) _ merge_slash emptyOptions os
  constructor
  · exact (opt_field Opt.omitNull _ merge_omit emptyOptions os).trans (h.omitNull.trans (opt_field Opt.omitNull _ merge_omit emptyOptions os').symm)
  · exact (opt_field orderOf _ merge_order emptyOptions os).trans (h.order.trans (opt_field orderOf _ merge_order emptyOptions os').symm)
  · exact (fold_cache os emptyOptions rfl).trans (fold_cache os' emptyOptions rfl).symm
  · exact ⟨(opt_field Opt.nanType _ merge_nan emptyOptions os).trans (h.nan.trans (opt_field Opt.nanType _ merge_nan emptyOptions os').symm),
      (opt_field Opt.nanToString _ merge_nanS emptyOptions os).trans (h.nanS.trans (opt_field Opt.nanToString _ merge_nanS emptyOptions os').symm),
      (opt_field Opt.nanToFloat _ merge_nanF emptyOptions os).trans (h.nanF.trans (opt_field Opt.nanToFloat _ merge_nanF emptyOptions os').symm)⟩
  · have hs := (opt_field (fun o => (o.infPos, o.infNeg)) _ merge_infS emptyOptions os).trans (h.infS.trans (opt_field (fun o => (o.infPos, o.infNeg)) _ merge_infS emptyOptions os').symm)
    exact ⟨(opt_field Opt.infType _ merge_inf emptyOptions os).trans (h.inf.trans (opt_field Opt.infType _ merge_inf emptyOptions os').symm),
      congrArg Prod.fst hs, congrArg Prod.snd hs,
      (opt_field Opt.infToFloat _ merge_infF emptyOptions os).trans (h.infF.trans (opt_field Opt.infToFloat _ merge_infF emptyOptions os').symm)⟩
  · rw [optOf_escaper, optOf_escaper]
    congr 1
    refine escaper_eq ((u os).trans (h.utf8.trans (u os').symm)) ?_ ?_
    · exact Bool.not_inj ((t os).trans (h.html.trans (t os').symm))
    · exact Bool.not_inj ((sl os).trans (h.slash.trans (sl os').symm))
  · exact (opt_field Opt.indent _ merge_indent emptyOptions os).trans (h.indent.trans (opt_field Opt.indent _ merge_indent emptyOptions os').symm)

theorem mergeTo_escaper (o : Opt) (x : Option Escaper) (op : MOpt) : ∃ y, MOpt.mergeTo { o with escaper := x } op = { MOpt.mergeTo o op with escaper := y } := by
  cases op with
  | less f => cases f <;> exact ⟨_, rfl⟩
  | _ => exact ⟨_, rfl⟩

theorem foldl_escaper : ∀ (os : List MOpt) (o : Opt) (x : Option Escaper), ∃ y, os.foldl MOpt.mergeTo { o with escaper := x } = { os.foldl MOpt.mergeTo o with escaper := y }
  | [], _, x => ⟨x, rfl⟩
  | op :: os, o, x => by
    obtain ⟨y, hy⟩ := mergeTo_escaper o x op
    obtain ⟨z, hz⟩ := foldl_escaper os (MOpt.mergeTo o op) y
    exact ⟨z, by simp only [List.foldl_cons, hy, hz]⟩

/-- the function fields are recomputed: a default set before acts like options given first -/
theorem default_first (ds os : List MOpt) : optOf (setDefault ds) os = optOf emptyOptions (ds ++ os) := by
  unfold optOf combineOptions setDefault Opt.combineFrom
  obtain ⟨y, hy⟩ := foldl_escaper os (ds.foldl MOpt.mergeTo emptyOptions) (some (parseEscapingFuncs (ds.foldl MOpt.mergeTo emptyOptions).escProps))
  rw [hy, List.foldl_append]

/-- a plain Opt{} forgets everything before it -/
theorem opt_resets (d : Opt) (pre post : List MOpt) {op : MOpt} (h : ∀ o o', MOpt.mergeTo o op = MOpt.mergeTo o' op) :
    optOf d (pre ++ op :: post) = optOf emptyOptions (op :: post) := by
  unfold optOf combineOptions Opt.combineFrom
  simp only [List.foldl_append, List.foldl_cons, h _ emptyOptions]

end JV
