import Verif.Spec.ThreadsSame
import Verif.Spec.Heap
import Verif.Proofs.ThreadsPath
import Verif.Model.Api
/-! What code gives that knows the state of all that it reads, whatever addresses it gets for new objects. -/
namespace JV
open Spec

variable {α β : Type}

def upd (K : Known) (a : Nat) (c : Cell) : Known := fun b => if b = a then some c else K b

/-- whatever addresses are chosen for its new objects, the code ends in `Q`; it reads and writes only what is known or made by it -/
def Predicts (o : Opt) (Q : Known → R α → Prop) : Known → Act α → Prop
  | K, .ret r => Q K r
  | K, .read a k => ∃ c, K a = some c ∧ Predicts o Q K (k (some c.plain))
  | K, .readIndex a k => ∃ c, K a = some c ∧ Predicts o Q K (k c.index)
  | K, .readOptions k => Predicts o Q K (k o)
  | K, .write a c k => ∃ d, K a = some d ∧ Predicts o Q (upd K a (c.withIndex d.index)) k
  | K, .writeIndex a l k => ∃ d, K a = some d ∧ Predicts o Q (upd K a (d.withIndex l)) k
  | _, .writeOptions _ _ => False
  | K, .alloc c k => ∀ a, K a = none → Predicts o Q (upd K a c) (k a)
termination_by structural _ p => p

/-- what is known is so -/
def KnownIn (K : Known) (h : Heap) : Prop := ∀ a c, K a = some c → h[a]? = some c

theorem knownIn_upd {K : Known} {h : Heap} {a : Nat} {c d : Cell} (hk : KnownIn K h) (ha : K a = some d) : KnownIn (upd K a c) (h.set a c) := by
  intro b e hb
  unfold upd at hb
  have hlt := (List.getElem?_eq_some_iff.1 (hk a d ha)).1
  split at hb
  · next e => subst e; cases hb; exact List.getElem?_set_self hlt
  · next e => rw [List.getElem?_set_ne (Ne.symm e)]; exact hk b _ hb

theorem knownIn_new {K : Known} {h : Heap} {c : Cell} (hk : KnownIn K h) : KnownIn (upd K h.length c) (h ++ [c]) := by
  intro b e hb
  unfold upd at hb
  split at hb
  · next e => subst e; cases hb; simp
  · have := hk b _ hb
    rw [List.getElem?_append_left (List.getElem?_eq_some_iff.1 this).1]; exact this

theorem knownIn_fresh {K : Known} {h : Heap} (hk : KnownIn K h) : K h.length = none := by
  cases hc : K h.length with
  | none => rfl
  | some c => have := hk _ c hc; simp at this

theorem predicts_step {o : Opt} {Q : Known → R α → Prop} {K : Known} {m m' : Mem} {p q : Act α} (hp : Predicts o Q K p) (hk : KnownIn K m.heap) (ho : m.options = o)
    (h : p.step m = some (m', q)) :
    ∃ K', Predicts o Q K' q ∧ KnownIn K' m'.heap ∧ m'.options = o ∧ ∀ a, K' a ≠ none → K a ≠ none ∨ a = m.heap.length := by
  have hu : ∀ {a c d}, K a = some d → ∀ b, upd K a c b ≠ none → K b ≠ none ∨ b = m.heap.length := by
    intro a c d ha b hb
    unfold upd at hb
    split at hb
    · next e => subst e; exact .inl (by rw [ha]; simp)
    · exact .inl hb
  cases p with
  | ret r => cases h
  | read a k =>
    cases h
    obtain ⟨c, hc, hp⟩ := hp
    refine ⟨K, ?_, hk, ho, fun _ => .inl⟩
    unfold Mem.node
    rw [hk a c hc]
    exact hp
  | readIndex a k =>
    cases h
    obtain ⟨c, hc, hp⟩ := hp
    refine ⟨K, ?_, hk, ho, fun _ => .inl⟩
    unfold Mem.index
    rw [hk a c hc]
    exact hp
  | readOptions k => cases h; exact ⟨K, by rw [ho]; exact hp, hk, ho, fun _ => .inl⟩
  | write a c k =>
    cases h
    obtain ⟨d, hd, hp⟩ := hp
    refine ⟨_, hp, ?_, ho, hu hd⟩
    have : m.index a = d.index := by unfold Mem.index; rw [hk a d hd]
    unfold Mem.setNode
    rw [this]
    exact knownIn_upd hk hd
  | writeIndex a l k =>
    cases h
    obtain ⟨d, hd, hp⟩ := hp
    refine ⟨_, hp, ?_, by rw [setIndex_options]; exact ho, hu hd⟩
    unfold Mem.setIndex
    rw [hk a d hd]
    exact knownIn_upd hk hd
  | writeOptions o k => exact hp.elim
  | alloc c k =>
    cases h
    refine ⟨_, hp _ (knownIn_fresh hk), knownIn_new hk, ho, fun b hb => ?_⟩
    unfold upd at hb
    split at hb
    · next e => exact .inr e
    · exact .inl hb

/-- alone -/
theorem predicts_run {o : Opt} {Q : Known → R α → Prop} : ∀ {p : Act α} {K : Known} {m : Mem}, Predicts o Q K p → KnownIn K m.heap → m.options = o →
    ∃ K', Q K' (p.run m).2 ∧ KnownIn K' (p.run m).1.heap := by
  intro p
  induction p with
  | ret r => exact fun hp hk _ => ⟨_, hp, hk⟩
  | writeOptions o k => exact fun hp => hp.elim
  | read a k ih | readIndex a k ih | readOptions k ih | write a c k ih | writeIndex a l k ih | alloc c k ih =>
    intro K m hp hk ho
    obtain ⟨K', h1, h2, h3, -⟩ := predicts_step hp hk ho rfl
    first | exact ih _ h1 h2 h3 | exact ih h1 h2 h3

/-- among others -/
theorem predicts_steps {F0 : Nat → Nat → Prop} {G : Nat → Prop} {w x : World α} (hd : ∀ i j a, i ≠ j → F0 i a → ¬ F0 j a) (hdg : ∀ i a, F0 i a → ¬ G a)
    (hb : ∀ i a, F0 i a → a < w.mem.heap.length) (hbg : ∀ a, G a → a < w.mem.heap.length) (hc : ∀ i, ClosedIn (F0 i) w.mem.heap) (hg : ClosedIn G w.mem.heap)
    (hs : ∀ (i : Nat) p, w.threads[i]? = some p → KeepsG G (fun _ _ => True) (F0 i) p) (h : World.Steps w x) {i : Nat} {p : Act α} (hp : w.threads[i]? = some p)
    {Q : Known → R α → Prop} {K : Known} (hq : Predicts w.mem.options Q K p) (hk : KnownIn K w.mem.heap) (hf : ∀ a, K a ≠ none → ∀ j, j ≠ i → ¬ F0 j a) :
    ∃ F K', GrowRun F0 G w x F ∧ KnownIn K' x.mem.heap ∧ (∀ a, K' a ≠ none → ∀ j, j ≠ i → ¬ F j a) ∧ ∃ q, x.threads[i]? = some q ∧ Predicts w.mem.options Q K' q := by
  induction h with
  | refl => exact ⟨F0, K, ⟨rfl, Nat.le_refl _, rfl, fun _ _ h => h, fun _ _ h => .inl h, hd, hdg, hb, hc, fun _ _ => rfl, fun _ _ _ => rfl, hs⟩, hk, hf, p, hp, hq⟩
  | @snoc x y _ s ih =>
    obtain ⟨F, K', hG, ha, hfr, q, hx, hq'⟩ := ih
    obtain ⟨j, p', q', m, F', hj, hst, rfl, s1, s2, s6, hG'⟩ := grow_step hbg hg hG s
    by_cases hij : j = i
    · subst hij
      rw [hx] at hj
      cases hj
      obtain ⟨K2, h1, h2, -, h4⟩ := predicts_step hq' ha hG.opts hst
      refine ⟨_, K2, hG', h2, fun a hka k hki hfa => ?_, q', ?_, h1⟩
      · rw [if_neg hki] at hfa
        rcases h4 a hka with h | rfl
        · exact hfr a h k hki hfa
        · exact Nat.lt_irrefl _ (hG.bound k _ hfa)
      · exact List.getElem?_set_self (List.getElem?_eq_some_iff.1 hx).1
    · have hnf : ∀ a, K' a ≠ none → ¬ F' a := by
        intro a hka hfa
        rcases s2 a hfa with h | rfl
        · exact hfr a hka j hij h
        · exact hka (knownIn_fresh ha)
      refine ⟨_, K', hG', fun a c hac => ?_, fun a hka k hki hfa => ?_, q, ?_, hq'⟩
      · exact (s6 a (hnf a (by rw [hac]; simp))).trans (ha a c hac)
      · split at hfa
        · exact hnf a hka hfa
        · exact hfr a hka k hki hfa
      · exact (List.getElem?_set_ne hij).trans hx

/-! ## rules -/

theorem predicts_andThen {o : Opt} {Q : Known → R α → Prop} {Q' : Known → R β → Prop} {f : R α → Act β} (hf : ∀ K r, Q K r → Predicts o Q' K (f r)) :
    ∀ {p : Act α} {K : Known}, Predicts o Q K p → Predicts o Q' K (p.andThen f)
  | .ret r, K, h => hf K r h
  | .read _ _, _, ⟨c, h1, h2⟩ => ⟨c, h1, predicts_andThen hf h2⟩
  | .readIndex _ _, _, ⟨c, h1, h2⟩ => ⟨c, h1, predicts_andThen hf h2⟩
  | .readOptions k, _, h => predicts_andThen (p := k o) hf h
  | .write _ _ _, _, ⟨c, h1, h2⟩ => ⟨c, h1, predicts_andThen hf h2⟩
  | .writeIndex _ _ _, _, ⟨c, h1, h2⟩ => ⟨c, h1, predicts_andThen hf h2⟩
  | .writeOptions _ _, _, h => h.elim
  | .alloc _ _, _, h => fun a ha => predicts_andThen hf (h a ha)

theorem predicts_mono {o : Opt} {Q Q' : Known → R α → Prop} (hq : ∀ K r, Q K r → Q' K r) : ∀ {p : Act α} {K : Known}, Predicts o Q K p → Predicts o Q' K p
  | .ret r, K, h => hq K r h
  | .read _ _, _, ⟨c, h1, h2⟩ => ⟨c, h1, predicts_mono hq h2⟩
  | .readIndex _ _, _, ⟨c, h1, h2⟩ => ⟨c, h1, predicts_mono hq h2⟩
  | .readOptions k, _, h => predicts_mono (p := k o) hq h
  | .write _ _ _, _, ⟨c, h1, h2⟩ => ⟨c, h1, predicts_mono hq h2⟩
  | .writeIndex _ _ _, _, ⟨c, h1, h2⟩ => ⟨c, h1, predicts_mono hq h2⟩
  | .writeOptions _ _, _, h => h.elim
  | .alloc _ _, _, h => fun a ha => predicts_mono hq (h a ha)

/-- for code that ends well -/
theorem predicts_onOk {o : Opt} {Q : Known → α → Prop} {Q' : Known → R β → Prop} {p : Act α} {f : α → Act β} {K : Known}
    (hp : Predicts o (fun K r => ∃ a, r = .ok a ∧ Q K a) K p) (hf : ∀ K a, Q K a → Predicts o Q' K (f a)) : Predicts o Q' K (p.onOk f) :=
  predicts_andThen (fun K r ⟨a, hr, hq⟩ => by subst hr; exact hf K a hq) hp

/-- all that was known, and maybe more -/
def Extends (K K' : Known) : Prop := ∀ a c, K a = some c → K' a = some c

theorem extends_refl (K : Known) : Extends K K := fun _ _ h => h
theorem extends_trans {K K' K2 : Known} (h : Extends K K') (h' : Extends K' K2) : Extends K K2 := fun a c ha => h' a c (h a c ha)
theorem extends_upd {K : Known} {a : Nat} (c : Cell) (h : K a = none) : Extends K (upd K a c) := by
  intro b d hb
  unfold upd
  split
  · next e => subst e; rw [h] at hb; cases hb
  · exact hb
theorem upd_self {K : Known} {a : Nat} {c : Cell} : upd K a c a = some c := by unfold upd; rw [if_pos rfl]

mutual
theorem hung_mono {K K' : Known} (h : Extends K K') : ∀ {p : Ptr} {t : V}, Hung K p t → Hung K' p t
  | _, _, .nil => .nil
  | _, _, .leaf a c t ha hc => .leaf a c t (h a c ha) hc
  | _, _, .arr a ps ts ha hs => .arr a ps ts (h _ _ ha) (hungL_mono h hs)
  | _, _, .obj a n es l l' ts ha hs => .obj a n es l l' ts (h _ _ ha) (hungE_mono h hs)
theorem hungL_mono {K K' : Known} (h : Extends K K') : ∀ {ps : List Ptr} {ts : List V}, HungL K ps ts → HungL K' ps ts
  | _, _, .nil => .nil
  | _, _, .cons p ps t ts h1 h2 => .cons p ps t ts (hung_mono h h1) (hungL_mono h h2)
theorem hungE_mono {K K' : Known} (h : Extends K K') : ∀ {es : List HEnt} {ts : List Ent}, HungE K es ts → HungE K' es ts
  | _, _, .nil => .nil
  | _, _, .cons k i p es t ts h1 h2 => .cons k i p es t ts (hung_mono h h1) (hungE_mono h h2)
end

theorem predicts_new {o : Opt} {Q : Known → R Ptr → Prop} {K : Known} {c : Cell} (h : ∀ a, K a = none → Q (upd K a c) (.ok (some a))) : Predicts o Q K (aNew c) := h

/-- code that gives a new document -/
def Gives (K : Known) (t : V) : Known → R Ptr → Prop := fun K' r => ∃ p, r = .ok p ∧ Extends K K' ∧ Hung K' p t

theorem predicts_leaf {o : Opt} {K : Known} {c : Cell} {t : V} (h : LeafOf c t) : Predicts o (Gives K t) K (aNew c) :=
  predicts_new fun a ha => ⟨_, rfl, extends_upd c ha, .leaf a c t upd_self h⟩

mutual
theorem predicts_build {o : Opt} : ∀ (t : V) (K : Known), Predicts o (Gives K t) K (aBuild t)
  | .nilp, K => by unfold aBuild; exact ⟨_, rfl, extends_refl K, .nil⟩
  | .notExist, _ => by unfold aBuild; exact predicts_leaf trivial
  | .str _, _ => by unfold aBuild; exact predicts_leaf rfl
  | .num _ _, _ => by unfold aBuild; exact predicts_leaf ⟨rfl, rfl⟩
  | .bool _, _ => by unfold aBuild; exact predicts_leaf rfl
  | .null, _ => by unfold aBuild; exact predicts_leaf trivial
  | .arr xs, K => by
    unfold aBuild
    refine predicts_onOk (predicts_builds xs K) fun K' ps ⟨h1, h2⟩ => predicts_new fun a ha => ?_
    exact ⟨_, rfl, extends_trans h1 (extends_upd _ ha), .arr a ps xs upd_self (hungL_mono (extends_upd _ ha) h2)⟩
  | .obj n kvs low, K => by
    unfold aBuild
    refine predicts_onOk (predicts_buildEnts kvs K) fun K' ps ⟨h1, h2⟩ => predicts_new fun a ha => ?_
    exact ⟨_, rfl, extends_trans h1 (extends_upd _ ha), .obj a n ps low low kvs upd_self (hungE_mono (extends_upd _ ha) h2)⟩
theorem predicts_builds {o : Opt} : ∀ (ts : List V) (K : Known), Predicts o (fun K' r => ∃ ps, r = .ok ps ∧ Extends K K' ∧ HungL K' ps ts) K (aBuilds ts)
  | [], K => by unfold aBuilds; exact ⟨_, rfl, extends_refl K, .nil⟩
  | v :: vs, K => by
    unfold aBuilds
    refine predicts_onOk (predicts_build v K) fun K' p ⟨h1, h2⟩ => predicts_onOk (predicts_builds vs K') fun K2 ps ⟨h3, h4⟩ => ?_
    exact ⟨_, rfl, extends_trans h1 h3, .cons _ _ _ _ (hung_mono h3 h2) h4⟩
theorem predicts_buildEnts {o : Opt} : ∀ (ts : List Ent) (K : Known), Predicts o (fun K' r => ∃ ps, r = .ok ps ∧ Extends K K' ∧ HungE K' ps ts) K (aBuildEnts ts)
  | [], K => by unfold aBuildEnts; exact ⟨_, rfl, extends_refl K, .nil⟩
  | .mk k i v :: vs, K => by
    unfold aBuildEnts
    refine predicts_onOk (predicts_build v K) fun K' p ⟨h1, h2⟩ => predicts_onOk (predicts_buildEnts vs K') fun K2 ps ⟨h3, h4⟩ => ?_
    exact ⟨_, rfl, extends_trans h1 h3, .cons _ _ _ _ _ _ (hung_mono h3 h2) h4⟩
end

mutual
theorem predicts_read {o : Opt} {K : Known} : ∀ (t : V) (n : Nat) {p : Ptr}, sizeOf t ≤ n → Hung K p t → Predicts o (fun K' r => ∃ u, r = .ok u ∧ K' = K ∧ u = noIndex t) K (aRead n p)
  | t, 0, p, hn, _ => by cases t <;> simp at hn
  | .nilp, n + 1, _, _, .nil => ⟨_, rfl, rfl, rfl⟩
  | t, n + 1, _, _, .leaf a c _ ha hc => by
    refine ⟨c, ha, ?_⟩
    cases c <;> cases t <;> first | exact hc.elim | skip
    · exact ⟨_, rfl, rfl, rfl⟩
    · cases hc; exact ⟨_, rfl, rfl, rfl⟩
    · obtain ⟨rfl, rfl⟩ := hc; exact ⟨_, rfl, rfl, rfl⟩
    · cases hc; exact ⟨_, rfl, rfl, rfl⟩
    · exact ⟨_, rfl, rfl, rfl⟩
  | .arr ts, n + 1, _, hn, .arr a ps _ ha h => by
    have ih := predicts_readL (o := o) (K := K) ts n (by simp at hn; omega) h
    refine ⟨_, ha, ?_⟩
    exact predicts_onOk ih fun K' us ⟨h1, h2⟩ => ⟨_, rfl, h1, by rw [h2]; simp only [noIndex]⟩
  | .obj i ts l, n + 1, _, hn, .obj a _ es l' _ _ ha h => by
    have ih := predicts_readE (o := o) (K := K) ts n (by simp at hn; omega) h
    refine ⟨_, ha, ?_⟩
    exact predicts_onOk ih fun K' us ⟨h1, h2⟩ => ⟨_, rfl, h1, by rw [h2]; simp only [noIndex]⟩
theorem predicts_readL {o : Opt} {K : Known} : ∀ (ts : List V) (n : Nat) {ps : List Ptr}, sizeOf ts ≤ n → HungL K ps ts →
    Predicts o (fun K' r => ∃ us, r = .ok us ∧ K' = K ∧ us = noIndexL ts) K (aReadList (aRead n) ps)
  | [], n, _, _, .nil => ⟨_, rfl, rfl, by simp only [noIndexL]⟩
  | t :: ts, n, _, hn, .cons p ps _ _ h hs => by
    have h1 := predicts_read (o := o) (K := K) t n (by simp at hn; omega) h
    have h2 := predicts_readL (o := o) (K := K) ts n (by simp at hn; omega) hs
    refine predicts_onOk h1 fun K' u ⟨e1, e2⟩ => ?_
    subst e1
    exact predicts_onOk h2 fun K' us ⟨e3, e4⟩ => ⟨_, rfl, e3, by rw [e2, e4]; simp only [noIndexL]⟩
theorem predicts_readE {o : Opt} {K : Known} : ∀ (ts : List Ent) (n : Nat) {es : List HEnt}, sizeOf ts ≤ n → HungE K es ts →
    Predicts o (fun K' r => ∃ us, r = .ok us ∧ K' = K ∧ entsOf es us = noIndexM ts) K (aReadList (aRead n) (es.map HEnt.v))
  | [], n, _, _, .nil => ⟨_, rfl, rfl, by simp only [noIndexM, entsOf]⟩
  | .mk k i t :: ts, n, _, hn, .cons _ _ p es _ _ h hs => by
    have h1 := predicts_read (o := o) (K := K) t n (by simp at hn; omega) h
    have h2 := predicts_readE (o := o) (K := K) ts n (by simp at hn; omega) hs
    refine predicts_onOk h1 fun K' u ⟨e1, e2⟩ => ?_
    subst e1
    exact predicts_onOk h2 fun K' us ⟨e3, e4⟩ => ⟨_, rfl, e3, by rw [entsOf, e2, e4]; simp only [noIndexM]⟩
end

mutual
theorem predicts_copy {o : Opt} : ∀ (t : V) (n : Nat) {K : Known} {p : Ptr}, sizeOf t ≤ n → Hung K p t → Predicts o (Gives K (copied t)) K (aDeepCopy n p)
  | t, 0, _, _, hn, _ => by cases t <;> simp at hn
  | .nilp, n + 1, K, _, _, .nil => by simp only [copied]; exact predicts_leaf trivial
  | t, n + 1, K, _, _, .leaf a c _ ha hc => by
    refine ⟨c, ha, ?_⟩
    cases c <;> cases t <;> first | exact hc.elim | (simp only [copied]; exact predicts_leaf hc)
  | .arr ts, n + 1, K, _, hn, .arr a ps _ ha h => by
    have ih := predicts_copyL (o := o) ts n (by simp at hn; omega) h
    refine ⟨_, ha, ?_⟩
    refine predicts_onOk ih fun K' us ⟨h1, h2⟩ => predicts_new fun b hb => ?_
    simp only [copied]
    exact ⟨_, rfl, extends_trans h1 (extends_upd _ hb), .arr b us _ upd_self (hungL_mono (extends_upd _ hb) h2)⟩
  | .obj i ts l, n + 1, K, _, hn, .obj a _ es l' _ _ ha h => by
    have ih := predicts_copyE (o := o) ts n (by simp at hn; omega) h
    refine ⟨_, ha, ?_⟩
    refine predicts_onOk ih fun K' us ⟨h1, h2⟩ => predicts_new fun b hb => ?_
    simp only [copied]
    exact ⟨_, rfl, extends_trans h1 (extends_upd _ hb), .obj b i _ none none _ upd_self (hungE_mono (extends_upd _ hb) h2)⟩
theorem predicts_copyL {o : Opt} : ∀ (ts : List V) (n : Nat) {K : Known} {ps : List Ptr}, sizeOf ts ≤ n → HungL K ps ts →
    Predicts o (fun K' r => ∃ us, r = .ok us ∧ Extends K K' ∧ HungL K' us (copiedL ts)) K (aCopyList (aDeepCopy n) ps)
  | [], n, K, _, _, .nil => ⟨_, rfl, extends_refl K, by simp only [copiedL]; exact .nil⟩
  | t :: ts, n, K, _, hn, .cons p ps _ _ h hs => by
    have h1 := predicts_copy (o := o) t n (by simp at hn; omega) h
    have h2 := fun K' (he : Extends K K') => predicts_copyL (o := o) ts n (by simp at hn; omega) (hungL_mono he hs)
    refine predicts_onOk h1 fun K' u ⟨e1, e2⟩ => predicts_onOk (h2 K' e1) fun K2 us ⟨e3, e4⟩ => ?_
    simp only [copiedL]
    exact ⟨_, rfl, extends_trans e1 e3, .cons _ _ _ _ (hung_mono e3 e2) e4⟩
theorem predicts_copyE {o : Opt} : ∀ (ts : List Ent) (n : Nat) {K : Known} {es : List HEnt}, sizeOf ts ≤ n → HungE K es ts →
    Predicts o (fun K' r => ∃ us, r = .ok us ∧ Extends K K' ∧ HungE K' (withValues es us) (copiedM ts)) K (aCopyList (aDeepCopy n) (es.map HEnt.v))
  | [], n, K, _, _, .nil => ⟨_, rfl, extends_refl K, by simp only [copiedM, withValues]; exact .nil⟩
  | .mk k i t :: ts, n, K, _, hn, .cons _ _ p es _ _ h hs => by
    have h1 := predicts_copy (o := o) t n (by simp at hn; omega) h
    have h2 := fun K' (he : Extends K K') => predicts_copyE (o := o) ts n (by simp at hn; omega) (hungE_mono he hs)
    refine predicts_onOk h1 fun K' u ⟨e1, e2⟩ => predicts_onOk (h2 K' e1) fun K2 us ⟨e3, e4⟩ => ?_
    simp only [copiedM]
    exact ⟨_, rfl, extends_trans e1 e3, .cons _ _ _ _ _ _ (hung_mono e3 e2) e4⟩
end

theorem predicts_marshal (E : Env) (S : SortFn) {o : Opt} {K : Known} {p : Ptr} {t : V} {n : Nat} (opts : List MOpt) (hn : sizeOf t ≤ n) (h : Hung K p t) :
    Predicts o (fun K' r => K' = K ∧ r = marshal E S o (noIndex t) opts) K (aMarshal E S n p opts) :=
  predicts_onOk (Q := fun K' u => K' = K ∧ u = noIndex t) (predicts_read t n hn h) fun _ _ ⟨h1, h2⟩ => ⟨h1, by rw [h2]⟩

/-! ## documents without an index -/

mutual
theorem noIndex_res (it : Bytes) : ∀ t : PV, noIndex (t.res it) = t.res it
  | .str _ _ | .num _ _ _ | .bool _ | .null => by simp only [PV.res, noIndex]
  | .arr xs => by simp only [PV.res, noIndex]; rw [noIndexL_res it xs]
  | .obj i kvs => by simp only [PV.res, noIndex]; rw [noIndexM_res it kvs]
theorem noIndexL_res (it : Bytes) : ∀ ts : List PV, noIndexL (PV.resL it ts) = PV.resL it ts
  | [] => by simp only [PV.resL, noIndexL]
  | t :: ts => by simp only [PV.resL, noIndexL]; rw [noIndex_res it t, noIndexL_res it ts]
theorem noIndexM_res (it : Bytes) : ∀ ts : List PEnt, noIndexM (PV.resE it ts) = PV.resE it ts
  | [] => by simp only [PV.resE, noIndexM]
  | ⟨s, e, i, t⟩ :: ts => by simp only [PV.resE, noIndexM]; rw [noIndex_res it t, noIndexM_res it ts]
end

theorem noIndex_unmarshal {E : Env} {b c : Bytes} {t : V} (h : goUnmarshal E b = .ok (c, t, none)) : noIndex t = t := by
  unfold goUnmarshal finish at h
  split at h
  · cases h
  · dsimp only at h
    split at h
    · cases h; exact noIndex_res _ _
    · cases h
    · cases h
    · cases h

mutual
theorem noIndex_copied : ∀ t : V, noIndex (copied t) = copied t
  | .nilp | .notExist | .str _ | .num _ _ | .bool _ | .null => by simp only [copied, noIndex]
  | .arr xs => by simp only [copied, noIndex]; rw [noIndexL_copied xs]
  | .obj i kvs _ => by simp only [copied, noIndex]; rw [noIndexM_copied kvs]
theorem noIndexL_copied : ∀ ts : List V, noIndexL (copiedL ts) = copiedL ts
  | [] => by simp only [copiedL, noIndexL]
  | t :: ts => by simp only [copiedL, noIndexL]; rw [noIndex_copied t, noIndexL_copied ts]
theorem noIndexM_copied : ∀ ts : List Ent, noIndexM (copiedM ts) = copiedM ts
  | [] => by simp only [copiedM, noIndexM]
  | .mk k i t :: ts => by simp only [copiedM, noIndexM]; rw [noIndex_copied t, noIndexM_copied ts]
end

/-! ## what can be reached is enough -/

/-- the part of the heap that can be reached -/
noncomputable def knownFrom (h : Heap) (roots : List Ptr) : Known := fun a => @ite _ (Reached h roots a) (Classical.propDecidable _) (h[a]?) none

theorem knownFrom_eq {h : Heap} {roots : List Ptr} {a : Nat} (ha : Reached h roots a) : knownFrom h roots a = h[a]? := by unfold knownFrom; rw [if_pos ha]

theorem knownFrom_some {h : Heap} {roots : List Ptr} {a : Nat} {c : Cell} (ha : knownFrom h roots a = some c) : Reached h roots a ∧ h[a]? = some c := by
  unfold knownFrom at ha
  split at ha
  · next hr => exact ⟨hr, ha⟩
  · cases ha

mutual
theorem hung_from {h : Heap} {roots : List Ptr} {K : Known} (hK : ∀ a, K a = h[a]?) :
    ∀ {p : Ptr} {t : V}, Hung K p t → Own (Reached h roots) p → Hung (knownFrom h roots) p t
  | _, _, .nil, _ => .nil
  | _, _, .leaf a c t ha hc, ho => .leaf a c t (by rw [knownFrom_eq (ho a rfl), ← hK, ha]) hc
  | _, _, .arr a ps ts ha hs, ho => .arr a ps ts (by rw [knownFrom_eq (ho a rfl), ← hK, ha])
      (hungL_from hK hs fun p hp b e => .child a b (.arr ps) (ho a rfl) (by rw [← hK, ha]) (by rw [← e]; exact hp))
  | _, _, .obj a n es l l' ts ha hs, ho => .obj a n es l l' ts (by rw [knownFrom_eq (ho a rfl), ← hK, ha])
      (hungE_from hK hs fun e he b eb => .child a b (.obj n es l) (ho a rfl) (by rw [← hK, ha]) (by rw [← eb]; exact List.mem_map_of_mem he))
theorem hungL_from {h : Heap} {roots : List Ptr} {K : Known} (hK : ∀ a, K a = h[a]?) :
    ∀ {ps : List Ptr} {ts : List V}, HungL K ps ts → (∀ p ∈ ps, Own (Reached h roots) p) → HungL (knownFrom h roots) ps ts
  | _, _, .nil, _ => .nil
  | _, _, .cons p ps t ts h1 h2, ho => .cons p ps t ts (hung_from hK h1 (ho p List.mem_cons_self)) (hungL_from hK h2 fun q hq => ho q (List.mem_cons_of_mem _ hq))
theorem hungE_from {h : Heap} {roots : List Ptr} {K : Known} (hK : ∀ a, K a = h[a]?) :
    ∀ {es : List HEnt} {ts : List Ent}, HungE K es ts → (∀ e ∈ es, Own (Reached h roots) e.v) → HungE (knownFrom h roots) es ts
  | _, _, .nil, _ => .nil
  | _, _, .cons k i p es t ts h1 h2, ho =>
    .cons k i p es t ts (hung_from hK h1 (ho ⟨k, i, p⟩ List.mem_cons_self)) (hungE_from hK h2 fun q hq => ho q (List.mem_cons_of_mem _ hq))
end

end JV
