import Verif.Spec.Nondet
import Verif.Proofs.Describe
import Verif.Proofs.SetSeq
import Verif.Proofs.Reformat
import Verif.Proofs.Unambiguous
/-! Values whose maps are visited in another order. -/
namespace JV
open Spec

variable {E : Env} {S : SortFn} {o : Opt} {T : Escaper}

/-! ### lists alike, position by position -/

inductive Al {α β : Type} (R : α → β → Prop) : List α → List β → Prop
  | nil : Al R [] []
  | cons {a b as bs} : R a b → Al R as bs → Al R (a :: as) (b :: bs)

theorem al_of {α β : Type} {R : α → β → Prop} : ∀ (as : List α) (bs : List β), as.length = bs.length →
    (∀ (i : Nat) a b, as[i]? = some a → bs[i]? = some b → R a b) → Al R as bs
  | [], [], _, _ => .nil
  | [], _ :: _, h, _ => by simp at h
  | _ :: _, [], h, _ => by simp at h
  | a :: as, b :: bs, hl, h => .cons (h 0 a b rfl rfl) (al_of as bs (by simpa using hl) fun i x y hx hy => h (i + 1) x y hx hy)

theorem Al.len {α β : Type} {R : α → β → Prop} {as : List α} {bs : List β} (h : Al R as bs) : as.length = bs.length := by
  induction h with
  | nil => rfl
  | cons _ _ ih => simp [ih]

theorem Al.at {α β : Type} {R : α → β → Prop} {as : List α} {bs : List β} (h : Al R as bs) : ∀ (i : Nat) a b, as[i]? = some a → bs[i]? = some b → R a b := by
  induction h with
  | nil => intro i a b h; simp at h
  | cons h _ ih =>
    intro i a b ha hb
    cases i with
    | zero => simp at ha hb; subst ha hb; exact h
    | succ i => exact ih i a b (by simpa using ha) (by simpa using hb)

theorem Al.imp {α β : Type} {R R' : α → β → Prop} {as : List α} {bs : List β} (h : Al R as bs) (hi : ∀ a b, R a b → R' a b) : Al R' as bs := by
  induction h with
  | nil => exact .nil
  | cons h _ ih => exact .cons (hi _ _ h) ih

theorem Al.flip {α β : Type} {R : α → β → Prop} {as : List α} {bs : List β} (h : Al R as bs) : Al (fun b a => R a b) bs as := by
  induction h with
  | nil => exact .nil
  | cons h _ ih => exact .cons h ih

theorem Al.trans {α β γ : Type} {R : α → β → Prop} {Q : β → γ → Prop} {as : List α} {bs : List β} {cs : List γ} (h : Al R as bs) (h' : Al Q bs cs) :
    Al (fun a c => ∃ b, R a b ∧ Q b c) as cs := by
  induction h generalizing cs with
  | nil => cases h'; exact .nil
  | cons h _ ih => cases h' with | cons h1 h2 => exact .cons ⟨_, h, h1⟩ (ih h2)

theorem al_refl {α : Type} {R : α → α → Prop} (h : ∀ a, R a a) : ∀ as : List α, Al R as as
  | [] => .nil
  | a :: as => .cons (h a) (al_refl h as)

theorem Al.mem_right {α β : Type} {R : α → β → Prop} {as : List α} {bs : List β} (h : Al R as bs) {b : β} (hb : b ∈ bs) : ∃ a ∈ as, R a b := by
  induction h with
  | nil => cases hb
  | cons h _ ih =>
    rcases List.mem_cons.1 hb with rfl | hb
    · exact ⟨_, by simp, h⟩
    · obtain ⟨a, ha, hr⟩ := ih hb; exact ⟨a, by simp [ha], hr⟩

theorem Al.map_eq {α β γ : Type} {R : α → β → Prop} {f : α → γ} {g : β → γ} {as : List α} {bs : List β} (h : Al R as bs) (hf : ∀ a b, R a b → f a = g b) :
    as.map f = bs.map g := by
  induction h with
  | nil => rfl
  | cons h _ ih => simp [hf _ _ h, ih]

/-- rearranging one of the lists, the other can follow -/
theorem al_perm {α β : Type} {R : α → β → Prop} {bs bs' : List β} (hp : bs.Perm bs') : ∀ {as : List α}, Al R as bs → ∃ as', as.Perm as' ∧ Al R as' bs' := by
  induction hp with
  | nil => intro as h; exact ⟨as, .refl _, h⟩
  | cons b _ ih =>
    intro as h
    cases h with
    | cons h1 h2 => obtain ⟨as', h3, h4⟩ := ih h2; exact ⟨_ :: as', h3.cons _, .cons h1 h4⟩
  | swap b c l =>
    intro as h
    cases h with
    | cons h1 h2 => cases h2 with
      | cons h2 h3 => exact ⟨_, .swap _ _ _, .cons h2 (.cons h1 h3)⟩
  | trans _ _ ih1 ih2 =>
    intro as h
    obtain ⟨as1, h1, h2⟩ := ih1 h
    obtain ⟨as2, h3, h4⟩ := ih2 h2
    exact ⟨as2, h1.trans h3, h4⟩

theorem al_filter {α β : Type} {R : α → β → Prop} {p : α → Bool} {q : β → Bool} {as : List α} {bs : List β} (h : Al R as bs) (hpq : ∀ a b, R a b → p a = q b) :
    Al R (as.filter p) (bs.filter q) := by
  induction h with
  | nil => exact .nil
  | @cons a b as bs h _ ih =>
    rw [List.filter_cons, List.filter_cons, hpq a b h]
    split
    · exact .cons h ih
    · exact ih

/-- partners for a list, of which those that pass a test are prescribed -/
theorem al_extend {α γ : Type} {R : α → α → Prop} {Q : α → γ → Prop} {Q' : α → γ → Prop} {p : α → Bool} (hr : ∀ a, R a a) (hp : ∀ a b, R a b → p a = p b)
    (hq : ∀ a c, Q a c → ∃ b, R a b ∧ Q' b c) : ∀ (as : List α) (cs : List γ), Al Q (as.filter p) cs → ∃ bs, Al R as bs ∧ Al Q' (bs.filter p) cs
  | [], cs, h => ⟨[], .nil, by cases h; exact .nil⟩
  | a :: as, cs, h => by
    rw [List.filter_cons] at h
    by_cases hpa : p a = true
    · rw [if_pos hpa] at h
      cases h with
      | @cons _ c _ cs h1 h2 =>
        obtain ⟨b, hb, hb'⟩ := hq a c h1
        obtain ⟨bs, h3, h4⟩ := al_extend hr hp hq as cs h2
        refine ⟨b :: bs, .cons hb h3, ?_⟩
        rw [List.filter_cons, if_pos (by rw [← hp a b hb]; exact hpa)]
        exact .cons hb' h4
    · rw [if_neg hpa] at h
      obtain ⟨bs, h3, h4⟩ := al_extend hr hp hq as cs h
      exact ⟨a :: bs, .cons (hr a) h3, by rw [List.filter_cons, if_neg hpa]; exact h4⟩

/-! ### shuffled values -/

/-- the same member, its value shuffled -/
def ER (e f : Ent) : Prop := e.key = f.key ∧ e.id = f.id ∧ Shuffled e.v f.v

theorem er_refl (e : Ent) : ER e e := ⟨rfl, rfl, .refl _⟩

theorem shuffled_arr {xs : List V} {w : V} (h : Shuffled (.arr xs) w) : ∃ ys, w = .arr ys ∧ Al Shuffled xs ys := by
  cases h with
  | refl => exact ⟨xs, rfl, al_refl .refl xs⟩
  | arr _ ys hl h => exact ⟨ys, rfl, al_of _ _ hl h⟩

theorem shuffled_obj {n kvs low} {w : V} (h : Shuffled (.obj n kvs low) w) : ∃ es fs, w = .obj n fs low ∧ kvs.Perm es ∧ Al ER es fs := by
  cases h with
  | refl => exact ⟨kvs, kvs, rfl, .refl _, al_refl er_refl kvs⟩
  | obj _ _ es fs _ hp hl h1 h2 => exact ⟨es, fs, rfl, hp, al_of _ _ hl fun i e f he hf => ⟨(h1 i e f he hf).1, (h1 i e f he hf).2, h2 i e f he hf⟩⟩

theorem shuffled_to_arr {v : V} {ys : List V} (h : Shuffled v (.arr ys)) : ∃ xs, v = .arr xs ∧ Al Shuffled xs ys := by
  cases h with
  | refl => exact ⟨ys, rfl, al_refl .refl ys⟩
  | arr xs _ hl h => exact ⟨xs, rfl, al_of _ _ hl h⟩

theorem shuffled_to_obj {n fs low} {v : V} (h : Shuffled v (.obj n fs low)) : ∃ kvs es, v = .obj n kvs low ∧ kvs.Perm es ∧ Al ER es fs := by
  cases h with
  | refl => exact ⟨fs, fs, rfl, .refl _, al_refl er_refl fs⟩
  | obj _ kvs es _ _ hp hl h1 h2 => exact ⟨kvs, es, rfl, hp, al_of _ _ hl fun i e f he hf => ⟨(h1 i e f he hf).1, (h1 i e f he hf).2, h2 i e f he hf⟩⟩

theorem shuffled_mk_arr {xs ys : List V} (h : Al Shuffled xs ys) : Shuffled (.arr xs) (.arr ys) := .arr xs ys h.len h.at

theorem shuffled_mk_obj {n kvs es fs low} (hp : kvs.Perm es) (h : Al ER es fs) : Shuffled (.obj n kvs low) (.obj n fs low) :=
  .obj n kvs es fs low hp h.len (fun i e f he hf => ⟨(h.at i e f he hf).1, (h.at i e f he hf).2.1⟩) (fun i e f he hf => (h.at i e f he hf).2.2)

theorem shuffled_null {v w : V} (h : Shuffled v w) : isNullV v = isNullV w := by cases h <;> rfl

theorem al_keys {es fs : List Ent} (h : Al ER es fs) : es.map Ent.key = fs.map Ent.key := h.map_eq fun _ _ h => h.1
theorem al_ids {es fs : List Ent} (h : Al ER es fs) : es.map Ent.id = fs.map Ent.id := h.map_eq fun _ _ h => h.2.1

theorem lookup_al {es fs : List Ent} (h : Al ER es fs) {k : Bytes} {f : Ent} (hf : lookup k fs = some f) : ∃ e, lookup k es = some e ∧ ER e f := by
  induction h with
  | nil => simp [lookup] at hf
  | @cons a b as bs hr _ ih =>
    have e1 : ∀ (a : Ent) l, lookup k (a :: l) = if a.key = k then some a else lookup k l := by intro a l; cases a; rfl
    rw [e1] at hf ⊢
    rw [hr.1]
    split at hf
    · cases hf; exact ⟨a, by simp [*], hr⟩
    · obtain ⟨e, h1, h2⟩ := ih hf; exact ⟨e, by simp [*], h2⟩

theorem shuffled_child {v w d : V} {s : Step} (hk : KeysNodup v) (h : Shuffled v w) (hd : w.child s = some d) : ∃ c, v.child s = some c ∧ Shuffled c d := by
  match w, s, hd with
  | .obj n fs low, .key k, hd =>
    obtain ⟨kvs, es, rfl, hp, ha⟩ := shuffled_to_obj h
    simp only [V.child, Option.map_eq_some_iff] at hd
    obtain ⟨f, hf, rfl⟩ := hd
    obtain ⟨e, he, hr⟩ := lookup_al ha hf
    rw [lookup_perm (kvs := kvs) hk hp.symm] at he
    exact ⟨e.v, by simp [V.child, he], hr.2.2⟩
  | .arr ys, .idx i, hd =>
    obtain ⟨xs, rfl, ha⟩ := shuffled_to_arr h
    have hi := (List.getElem?_eq_some_iff.1 hd).1
    have hi' : i < xs.length := by rw [ha.len]; exact hi
    exact ⟨xs[i], by simp [V.child, hi'], ha.at i _ _ (by simp [hi']) hd⟩

theorem her_shuffled {P : V → Prop} (hP : ∀ v w, Shuffled v w → P v → P w) {v w : V} (hk : Her KeysNodup v) (h : Her P v) (hs : Shuffled v w) : Her P w := by
  intro l
  induction l generalizing v w with
  | nil => intro c hc; cases hc; exact hP v w hs (her_self h)
  | cons s l ih =>
    intro c hc
    rw [V.at] at hc
    cases hd : w.child s with
    | none => rw [hd] at hc; cases hc
    | some d =>
      rw [hd] at hc
      obtain ⟨c', h1, h2⟩ := shuffled_child (her_self hk) hs hd
      exact ih ((her_iff.1 hk).2 s c' h1) ((her_iff.1 h).2 s c' h1) h2 c hc

theorem keysNodup_shuffled (v w : V) (hs : Shuffled v w) (h : KeysNodup v) : KeysNodup w := by
  cases v with
  | obj n kvs low =>
    obtain ⟨es, fs, rfl, hp, ha⟩ := shuffled_obj hs
    show (fs.map Ent.key).Nodup
    rw [← al_keys ha]
    exact (hp.map Ent.key).nodup_iff.1 h
  | arr xs => obtain ⟨ys, rfl, -⟩ := shuffled_arr hs; trivial
  | _ => cases hs; exact h

theorem idsNodup_shuffled (v w : V) (hs : Shuffled v w) (h : IdsNodup v) : IdsNodup w := by
  cases v with
  | obj n kvs low =>
    obtain ⟨es, fs, rfl, hp, ha⟩ := shuffled_obj hs
    show (fs.map Ent.id).Nodup
    rw [← al_ids ha]
    exact (hp.map Ent.id).nodup_iff.1 h
  | arr xs => obtain ⟨ys, rfl, -⟩ := shuffled_arr hs; trivial
  | _ => cases hs; exact h

theorem printable_shuffled {num str : Bytes → Prop} (v w : V) (hs : Shuffled v w) (h : Printable E o num str v) : Printable E o num str w := by
  cases v with
  | obj n kvs low =>
    obtain ⟨es, fs, rfl, hp, ha⟩ := shuffled_obj hs
    intro f hf
    obtain ⟨e, he, hr⟩ := ha.mem_right hf
    rw [← hr.1]
    exact h e (hp.mem_iff.2 he)
  | arr xs => obtain ⟨ys, rfl, -⟩ := shuffled_arr hs; trivial
  | _ => cases hs; exact h

theorem nothingOmitted_shuffled (v w : V) (hs : Shuffled v w) (h : NothingOmitted o v) : NothingOmitted o w := by
  cases v with
  | obj n kvs low =>
    obtain ⟨es, fs, rfl, hp, ha⟩ := shuffled_obj hs
    intro ho f hf
    obtain ⟨e, he, hr⟩ := ha.mem_right hf
    rw [← shuffled_null hr.2.2]
    exact h ho e (hp.mem_iff.2 he)
  | arr xs => obtain ⟨ys, rfl, -⟩ := shuffled_arr hs; trivial
  | _ => cases hs; exact h

theorem marshalable_shuffled {v w : V} (hv : Marshalable v) (hs : Shuffled v w) : Marshalable w := by
  refine ⟨her_shuffled keysNodup_shuffled hv.1 hv.1 hs, ?_, ?_⟩
  · have : Her (fun c => c ≠ .nilp) v := fun l c hc he => hv.2.1 l (he ▸ hc)
    have := her_shuffled (P := fun c => c ≠ .nilp) (fun a b hs ha => by rintro rfl; cases hs; exact ha rfl) hv.1 this hs
    exact fun l hl => this l _ hl rfl
  · rintro rfl; cases hs; exact hv.2.2 rfl

/-- shuffled values have the same contents -/
theorem shuffled_same {v w : V} (hs : Shuffled v w) : Her KeysNodup v → Same v w := by
  induction hs with
  | refl v => exact fun _ => same_refl v
  | arr xs ys hl _ ih => exact fun hk => .arr xs ys hl fun i x y hx hy => ih i x y hx hy ((her_iff.1 hk).2 (.idx i) x hx)
  | obj n kvs es fs low hp hl h1 h2 ih =>
    intro hk
    have hn : (keys kvs).Nodup := her_self hk
    have ha : Al ER es fs := al_of _ _ hl fun i e f he hf => ⟨(h1 i e f he hf).1, (h1 i e f he hf).2, h2 i e f he hf⟩
    have hm : ∀ e f : Ent, (∃ i : Nat, es[i]? = some e ∧ fs[i]? = some f) → e.key = f.key ∧ Same e.v f.v := by
      rintro e f ⟨i, he, hf⟩
      refine ⟨(h1 i e f he hf).1, ih i e f he hf ?_⟩
      refine (her_iff.1 hk).2 (.key e.key) e.v ?_
      simp [V.child, lookup_mem hn (hp.mem_iff.2 (List.mem_of_getElem? he))]
    have hn' : (keys fs).Nodup := by
      show (fs.map Ent.key).Nodup
      rw [← al_keys ha]; exact (hp.map Ent.key).nodup_iff.1 hn
    refine .obj _ _ _ _ _ _ (fun k => ?_) (fun k c c' hc hc' => ?_)
    · rw [Bool.eq_iff_iff, mem_members, mem_members, ← al_keys ha]
      exact (hp.map Ent.key).mem_iff
    · simp only [members, V.child, Option.map_eq_some_iff] at hc hc'
      obtain ⟨e, he, rfl⟩ := hc
      obtain ⟨f, hf, rfl⟩ := hc'
      obtain ⟨rfl, hme⟩ := lookup_some_key he
      obtain ⟨hkey, hmf⟩ := lookup_some_key hf
      obtain ⟨i, hi⟩ := List.getElem?_of_mem hmf
      have hi' : i < es.length := by rw [hl]; exact (List.getElem?_eq_some_iff.1 hi).1
      obtain ⟨h3, h4⟩ := hm es[i] f ⟨i, by simp [hi'], hi⟩
      have : es[i] = e := by
        have e1 := lookup_mem hn (hp.mem_iff.2 (List.getElem_mem hi'))
        rw [h3, hkey, he] at e1
        exact (Option.some.inj e1).symm
      rw [← this]; exact h4

/-! ### contents -/

theorem shown_filter (es : List Ent) : shown o es = es.filter fun e => !(o.omitNull && isNullV e.v) := by
  unfold shown
  cases o.omitNull with
  | true => simp
  | false => exact (List.filter_eq_self.2 (by simp)).symm

theorem er_shown {e f : Ent} (h : ER e f) : (!(o.omitNull && isNullV e.v)) = (!(o.omitNull && isNullV f.v)) := by rw [shuffled_null h.2.2]

/-- what shows a shuffled value, shows the value, in some order -/
theorem shows_shuffled {ord : List Step → List Ent → List Ent → Prop} {l : List Step} {w : V} {j : J} (h : Shows E o ord l w j) :
    ∀ v, Shuffled v w → Shows E o AnyOrder l v j := by
  induction h with
  | null l => intro v hs; cases hs; exact .null l
  | bool l b => intro v hs; cases hs; exact .bool l b
  | str l s d hd => intro v hs; cases hs; exact .str l s d hd
  | num l src n hn => intro v hs; cases hs; exact .num l src n hn
  | spec l src n s j h1 h2 => intro v hs; cases hs; exact .spec l src n s j h1 h2
  | arr l ys js hl _ ih =>
    intro v hs
    obtain ⟨xs, rfl, ha⟩ := shuffled_to_arr hs
    refine .arr l xs js (by rw [hl, ha.len]) fun i x j hx hj => ?_
    have hi : i < ys.length := by rw [← ha.len]; exact (List.getElem?_eq_some_iff.1 hx).1
    exact ih i ys[i] j (by simp [hi]) hj x (ha.at i x _ hx (by simp [hi]))
  | obj l n fs low es' ms hp ho hl h1 _ ih =>
    intro v hs
    obtain ⟨kvs, es, rfl, hp', ha⟩ := shuffled_to_obj hs
    obtain ⟨es'', hp'', ha'⟩ := al_perm hp.symm ha
    have hsh : Al ER (shown o es'') (shown o es') := by
      rw [shown_filter, shown_filter]; exact al_filter ha' fun _ _ h => er_shown h
    have key : ∀ (i : Nat) e m, (shown o es'')[i]? = some e → ms[i]? = some m → ∃ f, (shown o es')[i]? = some f ∧ ER e f := fun i e m he _ => by
      have hi : i < (shown o es').length := by rw [← hsh.len]; exact (List.getElem?_eq_some_iff.1 he).1
      exact ⟨(shown o es')[i], by simp [hi], hsh.at i e _ he (by simp [hi])⟩
    refine .obj l n kvs low es'' ms (hp'.trans hp'').symm trivial (by rw [hl, hsh.len]) ?_ ?_
    · intro i e m he hm
      obtain ⟨f, hf, hr⟩ := key i e m he hm
      rw [hr.1]; exact h1 i f m hf hm
    · intro i e m he hm
      obtain ⟨f, hf, hr⟩ := key i e m he hm
      rw [hr.1]; exact ih i f m hf hm e.v hr.2.2

/-- ... and whatever shows the value shows a shuffled value in stored order -/
theorem shows_stored {ord : List Step → List Ent → List Ent → Prop} {l : List Step} {v : V} {j : J} (h : Shows E o ord l v j) :
    ∃ w, Shuffled v w ∧ Shows E o Stored l w j := by
  induction h with
  | null l => exact ⟨_, .refl _, .null l⟩
  | bool l b => exact ⟨_, .refl _, .bool l b⟩
  | str l s d hd => exact ⟨_, .refl _, .str l s d hd⟩
  | num l src n hn => exact ⟨_, .refl _, .num l src n hn⟩
  | spec l src n s j h1 h2 => exact ⟨_, .refl _, .spec l src n s j h1 h2⟩
  | arr l xs js hl _ ih =>
    obtain ⟨ys, hy, hp⟩ := choose_list (fun (i : Nat) w => ∀ x j, xs[i]? = some x → js[i]? = some j → Shuffled x w ∧ Shows E o Stored (l ++ [.idx i]) w j)
      (List.range xs.length) fun i hi => by
        have hi : i < xs.length := by simpa using hi
        obtain ⟨w, h1, h2⟩ := ih i xs[i] js[i] (by simp [hi]) (by simp [hl ▸ hi])
        exact ⟨w, fun x t hx ht => by simp [hi, hl ▸ hi] at hx ht; subst hx ht; exact ⟨h1, h2⟩⟩
    have hy' : xs.length = ys.length := by simpa using hy
    have key : ∀ (i : Nat) x j w, xs[i]? = some x → js[i]? = some j → ys[i]? = some w → Shuffled x w ∧ Shows E o Stored (l ++ [.idx i]) w j :=
      fun i x t w hx ht hw => hp i i w (by have := (List.getElem?_eq_some_iff.1 hx).1; simp [this]) hw x t hx ht
    refine ⟨.arr ys, .arr xs ys hy' fun i x y hx hy => ?_, .arr l ys js (by omega) fun i y j hy hj => ?_⟩
    · have hi := (List.getElem?_eq_some_iff.1 hx).1
      exact (key i x js[i] y hx (by simp [hl ▸ hi]) hy).1
    · have hi := (List.getElem?_eq_some_iff.1 hj).1
      exact (key i xs[i] j y (by simp [hl ▸ hi]) hj hy).2
  | obj l n kvs low es ms hp ho hl h1 _ ih =>
    have hal : Al (fun (e : Ent) (m : Mem) => Cleaned e.key m.key ∧ ∃ w, Shuffled e.v w ∧ Shows E o Stored (l ++ [.key e.key]) w m.v) (shown o es) ms :=
      al_of _ _ hl.symm fun i e m he hm => ⟨h1 i e m he hm, ih i e m he hm⟩
    rw [shown_filter] at hal
    obtain ⟨fs, h2, h3⟩ := al_extend (R := ER) (Q' := fun (e : Ent) (m : Mem) => Cleaned e.key m.key ∧ Shows E o Stored (l ++ [.key e.key]) e.v m.v)
      er_refl (fun _ _ h => er_shown h) (by
        rintro e m ⟨hc, w, hw, hs⟩
        exact ⟨⟨e.key, e.id, w⟩, ⟨rfl, rfl, hw⟩, hc, hs⟩) es ms hal
    rw [← shown_filter] at h3
    refine ⟨.obj n fs low, shuffled_mk_obj hp.symm h2, .obj l n fs low fs ms (.refl _) rfl h3.len.symm ?_ ?_⟩
    · exact fun i e m he hm => (h3.at i e m he hm).1
    · exact fun i e m he hm => (h3.at i e m he hm).2

/-- in stored order there is one document -/
theorem shows_unique {l : List Step} {v : V} {j : J} (h : Shows E o Stored l v j) : ∀ j', Shows E o Stored l v j' → j' = j := by
  induction h with
  | null l => intro j' h; cases h; rfl
  | bool l b => intro j' h; cases h; rfl
  | str l s d hd => intro j' h; cases h with | str _ _ d' hd' => rw [cleaned_unique hd hd']
  | num l src n hn =>
    intro j' h
    cases h with
    | num => rfl
    | spec _ _ _ s _ h1 _ => rw [hn] at h1; cases h1
  | spec l src n s j h1 h2 =>
    intro j' h
    cases h with
    | num _ _ _ h => rw [h1] at h; cases h
    | spec _ _ _ s' _ h3 h4 => rw [h1] at h3; cases h3; exact (Sum.inl.inj (replace_unique h2 h4)).symm
  | arr l xs js hl _ ih =>
    intro j' h
    cases h with
    | arr _ _ js' hl' h' =>
      congr 1
      refine List.ext_getElem (by omega) fun i h1 h2 => ?_
      have hi : i < xs.length := by omega
      exact ih i xs[i] js[i] (by simp [hi]) (by simp) _ (h' i xs[i] js'[i] (by simp [hi]) (by simp))
  | obj l n kvs low es ms hp ho hl h1 _ ih =>
    intro j' h
    cases h with
    | obj _ _ _ _ es' ms' hp' ho' hl' h1' h2' =>
      have e1 : es = kvs := ho
      have e2 : es' = kvs := ho'
      subst e1; subst e2
      congr 1
      refine List.ext_getElem (by omega) fun i h3 h4 => ?_
      have hi : i < (shown o es').length := by omega
      have a1 := cleaned_unique (h1 i _ ms[i] (List.getElem?_eq_getElem hi) (by simp)) (h1' i _ ms'[i] (List.getElem?_eq_getElem hi) (by simp))
      have a2 := ih i _ ms[i] (List.getElem?_eq_getElem hi) (by simp) _ (h2' i _ ms'[i] (List.getElem?_eq_getElem hi) (by simp))
      generalize ms[i] = m at a1 a2
      generalize ms'[i] = m' at a1 a2
      cases m; cases m'
      simp only [Mem.key, Mem.v] at a1 a2
      rw [a1, a2]

theorem sorted_any (ho : orderOf o = .any) (p : Option ParentInfo) (kvs : List Ent) : sorted S o p kvs = kvs := by
  obtain ⟨h1, h2, h3⟩ := orderOf_any ho
  rw [sorted_eq, h1]
  simp [h2, h3]

/-! ### order of setting -/

theorem ids_seqd (hS : GoodSort S) {kvs : List Ent} (hn : (kvs.map Ent.id).Nodup) : ∃ es, Seqd (BitVec.allOnes 32) kvs es := by
  have hw : StrictWeak fun a b : Ent => decide (a.id.toNat < b.id.toNat) := by
    constructor <;> simp <;> omega
  have hp := sortBy_perm hS (fun a b : Ent => decide (a.id.toNat < b.id.toNat)) kvs
  have hs := sortBy_sorted hS hw kvs (less := fun a b : Ent => decide (a.id.toNat < b.id.toNat)) (fun _ _ _ _ _ _ _ => rfl)
  have hne : kvs.Pairwise fun a b => a.id ≠ b.id := List.pairwise_map.1 hn
  have hne' := (hp.pairwise_iff (R := fun a b : Ent => a.id ≠ b.id) fun h' => h'.symm).2 hne
  refine ⟨_, hp, (hs.and hne').imp ?_, fun e _ => ?_⟩
  · rintro a b ⟨h1, h2⟩
    have : a.id.toNat ≠ b.id.toNat := fun h' => h2 (BitVec.eq_of_toNat_eq h')
    simp only [decide_eq_false_iff_not] at h1
    omega
  · have := e.id.isLt; simp only [BitVec.toNat_allOnes]; omega

theorem seqd_al {n : BitVec 32} {kvs es gs fs : List Ent} (hs : Seqd n kvs es) (hp : kvs.Perm gs) (ha : Al ER gs fs) : ∃ fs', Seqd n fs fs' ∧ Al ER es fs' := by
  obtain ⟨fs', h1, h2⟩ := al_perm (hp.symm.trans hs.1.symm) ha.flip
  have h2 : Al ER es fs' := h2.flip
  refine ⟨fs', ⟨h1.symm, ?_, ?_⟩, h2⟩
  · have h3 : (es.map Ent.id).Pairwise fun a b => a.toNat < b.toNat := List.pairwise_map.2 hs.2.1
    rw [al_ids h2] at h3
    exact (List.pairwise_map (R := fun a b : BitVec 32 => a.toNat < b.toNat)).1 h3
  · intro f hf
    obtain ⟨e, he, hr⟩ := h2.mem_right hf
    rw [← hr.2.1]; exact hs.2.2 e he

theorem docMems_al {f g : Ent → Option ParentInfo → Doc} {p q : Option ParentInfo} {es es' : List Ent} (h : Al ER es es') : ∀ fw : Bool,
    (∀ e ∈ es, ∀ e', ER e e' → ∀ p q, f e p = g e' q) →
    docMems o T p fw (es.map fun e => (e, f e)) = docMems o T q fw (es'.map fun e => (e, g e)) := by
  induction h with
  | nil => intro _ _; rfl
  | @cons e e' es es' hr _ ih =>
    intro fw h
    have ih := fun fw => ih fw fun x hx => h x (by simp [hx])
    simp only [List.map_cons, docMems, ← shuffled_null hr.2.2, ih, ← hr.1]
    split
    · rfl
    · rw [h e (by simp) e' hr]

theorem doc_bySet {S S' : SortFn} (hS : GoodSort S) (hS' : GoodSort S') (ho : orderOf o = .bySet) (v : V) : ∀ w, Shuffled v w → Her KeysNodup v → Her IdsNodup v →
    ∀ p q, doc E S o T v p = doc E S' o T w q := by
  induction v using kid_ind with
  | step v ih =>
    intro w hs hk hid p q
    cases v with
    | arr xs =>
      obtain ⟨ys, rfl, ha⟩ := shuffled_arr hs
      conv => lhs; unfold doc
      conv => rhs; unfold doc
      rw [ha.len]
      split
      · rfl
      · rw [docElems_same xs ys 0 ha.len fun j x y h1 h2 p q => ?_]
        have m1 := List.mem_of_getElem? h1
        exact ih x m1 y (ha.at j x y h1 h2) (her_kid hk hk m1) (her_kid hk hid m1) p q
    | obj n kvs low =>
      obtain ⟨gs, fs, rfl, hp, ha⟩ := shuffled_obj hs
      obtain ⟨es, hes⟩ := ids_seqd hS (her_self hid)
      obtain ⟨fs', hfs, ha'⟩ := seqd_al hes hp ha
      have hn : (keys kvs).Nodup := her_self hk
      have hn' : (keys fs).Nodup := keysNodup_shuffled _ _ hs hn
      by_cases h0 : kvs = []
      · subst h0
        have : gs = [] := List.nil_perm.1 hp
        subst this
        cases ha
        simp [doc]
      · have h0' : fs ≠ [] := by
          rintro rfl
          cases ha
          exact h0 (List.perm_nil.1 hp)
        rw [doc_obj _ _ _ _ h0, doc_obj _ _ _ _ h0', sorted_bySet hS ho hn hes, sorted_bySet hS' ho hn' hfs]
        rw [docMems_al ha' false fun e he e' hr p q => ?_]
        have m1 : Kid (.obj n kvs low) e.v := ⟨e, hes.1.mem_iff.1 he, rfl⟩
        exact ih e.v m1 e'.v hr.2.2 (her_kid hk hk m1) (her_kid hk hid m1) p q
    | _ => cases hs; simp only [doc]

theorem errOf_shuffled {v w : V} (h : Shuffled v w) : errOf o v = errOf o w := by
  cases h <;> rfl

/-- the counter of an object numbers its members, after a history without wrap-around -/
theorem seqd_nodup {n : BitVec 32} {kvs es : List Ent} (h : Seqd n kvs es) : (kvs.map Ent.id).Nodup := by
  have : (es.map Ent.id).Nodup := List.pairwise_map.2 (h.2.1.imp fun h' he => by rw [he] at h'; omega)
  exact (h.1.map Ent.id).nodup_iff.1 this

/-- distinct numbers all over a parsed document -/
theorem toV_ids (E : Env) (j : J) (hn : j.Narrow) : Her IdsNodup (toV E j) := by
  match j with
  | .null => rw [her_iff]; exact ⟨by simp [toV, IdsNodup], fun s c hc => by simp [toV, V.child] at hc⟩
  | .bool b => rw [her_iff]; exact ⟨by simp [toV, IdsNodup], fun s c hc => by simp [toV, V.child] at hc⟩
  | .num t => rw [her_iff]; exact ⟨by simp [toV, IdsNodup], fun s c hc => by simp [toV, V.child] at hc⟩
  | .str s => rw [her_iff]; exact ⟨by simp [toV, IdsNodup], fun s c hc => by simp [toV, V.child] at hc⟩
  | .arr xs =>
    rw [her_iff]
    refine ⟨by simp [toV, IdsNodup], fun s c hc => ?_⟩
    match s, hc with
    | .key k, hc => simp [toV, V.child] at hc
    | .idx i, hc =>
      simp only [toV, V.child] at hc
      rw [toVL_getElem] at hc
      obtain ⟨x, hx, rfl⟩ := Option.map_eq_some_iff.1 hc
      have := List.sizeOf_lt_of_mem (List.mem_of_getElem? hx)
      exact toV_ids E x (NarrowL_mem hn (List.mem_of_getElem? hx))
  | .obj ms =>
    have hv : toV E (.obj ms) = ((ms.map Mem.key).zip (ms.map fun m => toV E m.v)).foldl (fun v p => ObjOp.run E v (.set p.1 p.2)) newObject := by
      simp only [toV]; exact toVM_sets E ms {}
    have hr := objRun_foldl E ((ms.map Mem.key).zip (ms.map fun m => toV E m.v)) newObject
    rw [← hv] at hr
    obtain ⟨n, kvs, low, es, he, h1, h2⟩ := objRun_seq hr 0 [] none [] rfl new_good seqd_new (by rw [setCount_sets]; simpa using hn.1)
    rw [her_iff]
    refine ⟨by rw [he]; exact seqd_nodup h1, fun s c hc => ?_⟩
    rw [he] at hc
    match s, hc with
    | .idx i, hc => simp [V.child] at hc
    | .key k, hc =>
      simp only [V.child] at hc
      obtain ⟨e, hek, rfl⟩ := Option.map_eq_some_iff.1 hc
      have hmem : (e.key, e.v) ∈ pairs es := List.mem_map.2 ⟨e, h1.1.mem_iff.2 (lookup_some_key hek).2, rfl⟩
      have := seqRun_sets _ _ _ ?_ h2
      · rw [show pairs [] = [] from rfl, List.filter_nil, List.nil_append] at this
        rw [this] at hmem
        obtain ⟨m, hm, hmv⟩ := List.mem_map.1 (List.of_mem_zip (lastOnes_mem hmem)).2
        have := mem_sizeOf hm
        rw [← hmv]
        exact toV_ids E m.v (NarrowM_mem hn.2 hm)
      · intro p hp
        obtain ⟨m, hm, hmv⟩ := List.mem_map.1 (List.of_mem_zip hp).2
        rw [← hmv]; exact toV_init E m.v
termination_by sizeOf j
decreasing_by all_goals simp_wf <;> omega

end JV
