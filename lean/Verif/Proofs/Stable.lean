import Verif.Spec.Stable
import Verif.Props.Alike
import Verif.Proofs.NumText
import Verif.Proofs.IeeeNum
/-! Values that were read back from their text, leaf by leaf. -/
namespace JV
open Spec

variable {E : Env}

/-! a number for every text -/

def codeNat : Bytes → Nat
  | [] => 0
  | c :: s => 1 + c.toNat + 257 * codeNat s

theorem codeNat_inj : ∀ s t : Bytes, codeNat s = codeNat t → s = t
  | [], [], _ => rfl
  | [], c :: t, h => by simp only [codeNat] at h; omega
  | c :: s, [], h => by simp only [codeNat] at h; omega
  | c :: s, d :: t, h => by
    simp only [codeNat] at h
    have h1 := c.toNat_lt
    have h2 := d.toNat_lt
    have h3 : c.toNat = d.toNat := by omega
    rw [UInt8.toNat_inj.1 h3, codeNat_inj s t (by omega)]

def codeVal (s : Bytes) : Rat := (codeNat s : Rat)

theorem codeVal_inj {s t : Bytes} (h : codeVal s = codeVal t) : s = t := codeNat_inj s t (Rat.natCast_inj.1 h)

theorem leafRel_identical : LeafRel IdenticalLeaf where
  left _ _ h := h.1
  right v w h := h.2 ▸ h.1
  nilp v w h := by rw [h.2]
  notExist v w h := by rw [h.2]

theorem identical_of_equalTo {v w : V} (h : EqualTo codeVal v w) : Her KeysNodup v → Her KeysNodup w → Her (Canon E) v → Her (Canon E) w → Identical v w := by
  induction h with
  | null => exact fun _ _ _ _ => .leaf _ _ ⟨trivial, rfl⟩
  | bool b => exact fun _ _ _ _ => .leaf _ _ ⟨trivial, rfl⟩
  | str s => exact fun _ _ _ _ => .leaf _ _ ⟨trivial, rfl⟩
  | num s t n m h =>
    intro _ _ hv hw
    have := codeVal_inj h
    subst this
    have h1 : unmarshal E s = .ok (.num s n) := her_self hv
    have h2 : unmarshal E s = .ok (.num s m) := her_self hw
    rw [h1] at h2
    cases h2
    exact .leaf _ _ ⟨trivial, rfl⟩
  | arr xs ys hl _ ih =>
    exact fun hv hw cv cw => .arr _ _ hl fun i x y hx hy => ih i x y hx hy ((her_iff.1 hv).2 (.idx i) x hx) ((her_iff.1 hw).2 (.idx i) y hy)
      ((her_iff.1 cv).2 (.idx i) x hx) ((her_iff.1 cw).2 (.idx i) y hy)
  | obj n kvs low n' kvs' low' hk _ ih =>
    exact fun hv hw cv cw => .obj _ _ _ _ _ _ (her_iff.1 hv).1 (her_iff.1 hw).1 hk fun k c c' h1 h2 =>
      ih k c c' h1 h2 ((her_iff.1 hv).2 (.key k) c h1) ((her_iff.1 hw).2 (.key k) c' h2) ((her_iff.1 cv).2 (.key k) c h1) ((her_iff.1 cw).2 (.key k) c' h2)

theorem her_unmarshal_keys {s : Bytes} {v : V} (h : unmarshal E s = .ok v) : Her KeysNodup v := fun l c hc => by
  have := her_unmarshal_good h l c hc
  cases c with
  | obj n kvs low => exact this.1
  | _ => trivial

theorem her_unmarshal_canon {s : Bytes} {v : V} (h : unmarshal E s = .ok v) : Her (Canon E) v := by
  obtain ⟨j, ⟨b1, t, b2, -, -, hv, -⟩, rfl⟩ := (unmarshal_iff E s v).1 h
  have := denotes_nums (E := E) (toV_denotes E (fun t n => unmarshal E t = .ok (.num t n)) j (AllNums_mono (fun t ht => unmarshal_numTok ht) j (lval_nums hv)))
  intro l c hc
  cases c with
  | num t n => exact this l _ hc t n rfl
  | _ => trivial

theorem identical_symm {v w : V} (h : Identical v w) : Identical w v := by
  induction h with
  | leaf v w h => exact .leaf _ _ ⟨h.2 ▸ h.1, h.2.symm⟩
  | arr xs ys hl _ ih => exact .arr _ _ hl.symm fun i x y hx hy => ih i y x hy hx
  | obj n kvs low n' kvs' low' h1 h2 h3 _ ih => exact .obj _ _ _ _ _ _ h2 h1 (fun k => (h3 k).symm) fun k c c' hc hc' => ih k c' c hc' hc

theorem identical_same {v w : V} (h : Identical v w) : Same v w := by
  induction h with
  | leaf v w h => rw [← h.2]; exact .scalar _ h.1
  | arr xs ys hl _ ih => exact .arr _ _ hl ih
  | obj n kvs low n' kvs' low' _ _ hk _ ih => exact .obj _ _ _ _ _ _ hk ih

theorem identical_refl {v : V} (h : Her KeysNodup v) : Identical v v := by
  induction v using kid_ind with
  | step v ih =>
    cases v with
    | arr xs => exact .arr _ _ rfl fun i x y h1 h2 => by rw [h1] at h2; cases h2; exact ih x (List.mem_of_getElem? h1) ((her_iff.1 h).2 (.idx i) x h1)
    | obj n kvs low =>
      refine .obj _ _ _ _ _ _ (her_self h) (her_self h) (fun _ => rfl) fun k c c' h1 h2 => ?_
      rw [h1] at h2; cases h2
      exact ih c (child_kid h1) ((her_iff.1 h).2 (.key k) c h1)
    | _ => exact .leaf _ _ ⟨trivial, rfl⟩

/-! conversions of values that are exactly alike -/

theorem identical_cases {v w : V} (h : Identical v w) :
    v = w ∨ (∃ xs ys, v = .arr xs ∧ w = .arr ys ∧ xs.length = ys.length) ∨ (∃ n kvs low n' kvs' low', v = .obj n kvs low ∧ w = .obj n' kvs' low') := by
  cases h with
  | leaf v w h => exact .inl h.2
  | arr xs ys hl _ => exact .inr (.inl ⟨_, _, rfl, rfl, hl⟩)
  | obj => exact .inr (.inr ⟨_, _, _, _, _, _, rfl, rfl⟩)

theorem identical_numRec {v w : V} (h : Identical v w) : numRec E v = numRec E w := by
  rcases identical_cases h with rfl | ⟨_, _, rfl, rfl, _⟩ | ⟨_, _, _, _, _, _, rfl, rfl⟩ <;> rfl

theorem identical_numberAndErr {v w : V} (h : Identical v w) : numberAndErr E v = numberAndErr E w := by
  rcases identical_cases h with rfl | ⟨_, _, rfl, rfl, _⟩ | ⟨_, _, _, _, _, _, rfl, rfl⟩ <;> rfl

theorem identical_boolAndErr {v w : V} (h : Identical v w) : boolAndErr v = boolAndErr w := by
  rcases identical_cases h with rfl | ⟨_, _, rfl, rfl, _⟩ | ⟨_, _, _, _, _, _, rfl, rfl⟩ <;> rfl


theorem typedGetC_alike {α : Type} {P : V → V → Prop} {cl : Bool} {v w : V} {ps : List Param} {zero : α} {conv : V → Ret α} (h : ResAlike P (getC E cl v ps).2 (getC E cl w ps).2)
    (hc : ∀ a b, (getC E cl v ps).2 = .ok a → P a b → conv a = conv b) : typedGet E cl zero conv v ps = typedGet E cl zero conv w ps := by
  unfold typedGet
  generalize (getC E cl v ps).2 = r at h hc
  generalize (getC E cl w ps).2 = s at h
  cases h with
  | ok a b h => exact hc a b rfl h
  | _ => rfl

theorem readAlike {cl : Bool} {v w : V} {ps : List Param} (hg : ResAlike Identical (getC E cl v ps).2 (getC E cl w ps).2) : ReadAlike E cl v w ps := by
  have hnum : ∀ {α : Type} (f : V → R α) (zero : α), typedGet E cl zero (convNum E f) v ps = typedGet E cl zero (convNum E f) w ps := fun f zero =>
    typedGetC_alike hg fun a b _ hab => by simp only [convNum, identical_numberAndErr hab]
  refine ⟨hg, ?_, ?_, ?_, ?_, hnum _ _, hnum _ _, hnum _ _, hnum _ _, hnum _ _, hnum _ _, ?_⟩
  · refine typedGetC_alike hg fun a b _ hab => ?_
    rcases identical_cases hab with rfl | ⟨_, _, rfl, rfl, _⟩ | ⟨_, _, _, _, _, _, rfl, rfl⟩ <;> rfl
  · refine typedGetC_alike hg fun a b _ hab => ?_
    rcases identical_cases hab with rfl | ⟨_, _, rfl, rfl, _⟩ | ⟨_, _, _, _, _, _, rfl, rfl⟩ <;> rfl
  · exact typedGetC_alike hg fun a b _ hab => identical_boolAndErr hab
  · refine typedGetC_alike hg fun a b _ hab => ?_
    rcases identical_cases hab with rfl | ⟨_, _, rfl, rfl, _⟩ | ⟨_, _, _, _, _, _, rfl, rfl⟩ <;> rfl
  · intro a b ha hb
    rw [ha, hb] at hg
    cases hg with
    | ok _ _ hab =>
      have hl : len a = len b := by
        cases hab with
        | leaf _ _ h => rw [h.2]
        | arr xs ys hl _ => simp only [len, hl]
        | obj n kvs low n' kvs' low' h1 h2 hk _ =>
          have hm : ∀ k, k ∈ keys kvs ↔ k ∈ keys kvs' := fun k => by
            rw [← lookup_isSome, ← lookup_isSome]
            have := hk k
            simp only [members, V.child, Option.isSome_map] at this
            rw [this]
          have := ((List.perm_ext_iff_of_nodup h1 h2).2 hm).length_eq
          simp only [keys, List.length_map] at this
          simp only [len, this]
      refine ⟨?_, hl, ?_⟩
      · rcases identical_cases hab with rfl | ⟨_, _, rfl, rfl, _⟩ | ⟨_, _, _, _, _, _, rfl, rfl⟩ <;> rfl
      · rcases identical_cases hab with rfl | ⟨_, _, rfl, rfl, _⟩ | ⟨_, _, _, _, _, _, rfl, rfl⟩
        · simp
        · exact ⟨rfl, rfl, rfl, rfl, rfl, rfl, rfl, rfl, rfl, rfl, rfl, rfl, rfl, fun h => h.elim⟩
        · exact ⟨rfl, rfl, rfl, rfl, rfl, rfl, rfl, rfl, rfl, rfl, rfl, rfl, rfl, fun h => h.elim⟩

theorem identical_marshalable {v w : V} (h : Identical v w) (hv : Marshalable v) : Marshalable w := by
  refine ⟨(alike_keys leafRel_identical h).2, fun l hl => ?_, fun hw => ?_⟩
  · have := alike_at leafRel_identical l h
    rw [hl] at this
    have hn := hv.2.1 l
    generalize v.at l = o at this hn
    cases this with
    | some h =>
      cases h with
      | leaf _ _ h => exact hn (by rw [h.2])
  · subst hw
    cases h with
    | leaf _ _ h => exact hv.2.2 h.2

/-! what a portable value is read back as -/

theorem portable_equalTo {val : Bytes → Rat} {v w : V} (h : EqualTo val v w) : Her (Portable E) v → Her KeysNodup w → Her (Canon E) w → Her (Portable E) w := by
  induction h with
  | null => exact fun _ _ _ => her_leaf trivial trivial
  | bool b => exact fun _ _ _ => her_leaf trivial trivial
  | str s => exact fun h _ _ => h
  | num s t n m h => exact fun _ _ hc => her_leaf ⟨m, her_self hc⟩ trivial
  | arr xs ys hl _ ih =>
    intro hp hk hc
    refine her_iff.2 ⟨trivial, fun s c h => ?_⟩
    cases s with
    | key k => cases h
    | idx i =>
      have h : ys[i]? = some c := h
      have hi : i < xs.length := by have := (List.getElem?_eq_some_iff.1 h).1; omega
      have hx := List.getElem?_eq_getElem hi
      exact ih i xs[i] c hx h ((her_iff.1 hp).2 (.idx i) _ hx) ((her_iff.1 hk).2 (.idx i) c h) ((her_iff.1 hc).2 (.idx i) c h)
  | obj n kvs low n' kvs' low' hm _ ih =>
    intro hp hk hc
    refine her_iff.2 ⟨fun e he => ?_, fun s c h => ?_⟩
    · have h1 : (members (.obj n' kvs' low') e.key).isSome = true := by
        simp only [members, V.child, Option.isSome_map]
        exact lookup_isSome.2 (List.mem_map_of_mem he)
      rw [← hm] at h1
      simp only [members, V.child, Option.isSome_map] at h1
      obtain ⟨e', he', hke⟩ := List.mem_map.1 (lookup_isSome.1 h1)
      exact hke ▸ (her_self hp : ∀ e ∈ kvs, ValidUTF8 e.key) e' he'
    · cases s with
      | idx i => cases h
      | key k =>
        have h1 := hm k
        rw [show members (.obj n' kvs' low') k = some c from h] at h1
        obtain ⟨d, hd⟩ := Option.isSome_iff_exists.1 h1
        exact ih k d c hd h ((her_iff.1 hp).2 (.key k) d hd) ((her_iff.1 hk).2 (.key k) c h) ((her_iff.1 hc).2 (.key k) c h)

/-! texts -/

theorem portable_parsed {E : Env} {s : Bytes} {v : V} (hun : unmarshal E s = .ok v)
    (hu : Her Utf8Node v) : Her (Portable E) v := fun l c hc => by
  have h1 := hu l c hc
  have h2 := her_unmarshal_solid hun l c hc
  cases c with
  | nilp => exact absurd rfl h2.1
  | notExist => exact absurd rfl h2.2
  | num src n => exact unmarshal_nums hun l _ hc src n rfl
  | str s => exact h1
  | obj n kvs low => exact h1
  | _ => trivial

theorem cleaned_utf8 {s d : Bytes} (h : Cleaned s d) : ValidUTF8 d := by
  obtain ⟨rs, h1, rfl⟩ := h
  exact ⟨rs, h1.scalar, rfl⟩

theorem textsL_iff {P : Bytes → Prop} : ∀ xs : List J, (∀ x ∈ xs, x.Texts P) → TextsL P xs
  | [], _ => trivial
  | x :: xs, h => ⟨h x (by simp), textsL_iff xs fun y hy => h y (by simp [hy])⟩

theorem textsM_iff {P : Bytes → Prop} : ∀ ms : List Mem, (∀ m ∈ ms, P m.key ∧ m.v.Texts P) → TextsM P ms
  | [], _ => trivial
  | ⟨k, v⟩ :: ms, h => ⟨(h ⟨k, v⟩ (by simp)).1, (h ⟨k, v⟩ (by simp)).2, textsM_iff ms fun y hy => h y (by simp [hy])⟩

theorem shows_texts {o : Opt} {ord : List Step → List Ent → List Ent → Prop} {l : List Step} {v : V} {j : J} (h : Shows E o ord l v j) : j.Texts ValidUTF8 := by
  induction h with
  | null | bool | num => trivial
  | str l s d hc => exact cleaned_utf8 hc
  | spec l src n s j _ hr =>
    cases hr with
    | nanStr _ _ h | infPStr _ _ h | infNStr _ _ h => exact cleaned_utf8 h
    | _ => trivial
  | arr l xs js hl _ ih =>
    refine textsL_iff js fun x hx => ?_
    obtain ⟨i, hi, rfl⟩ := List.mem_iff_getElem.1 hx
    exact ih i xs[i] js[i] (List.getElem?_eq_getElem (by omega)) (List.getElem?_eq_getElem hi)
  | obj l n kvs low es ms hp ho hl hk _ ih =>
    refine textsM_iff ms fun m hm => ?_
    obtain ⟨i, hi, rfl⟩ := List.mem_iff_getElem.1 hm
    exact ⟨cleaned_utf8 (hk i (shown o es)[i] ms[i] (List.getElem?_eq_getElem (by omega)) (List.getElem?_eq_getElem hi)),
      ih i (shown o es)[i] ms[i] (List.getElem?_eq_getElem (by omega)) (List.getElem?_eq_getElem hi)⟩

theorem toVM_keys {P : Bytes → Prop} : ∀ (ms : List Mem) (st : OSt), (∀ e ∈ st.kvs, P e.key) → TextsM P ms → ∀ e ∈ (toVM E ms st).kvs, P e.key
  | [], _, h, _ => h
  | ⟨k, v⟩ :: ms, st, h, ht => toVM_keys ms _ (fun e he => by
      rcases mem_assign he with rfl | he
      · exact ht.1
      · exact h e he) ht.2.2

mutual
theorem utf8_toV : ∀ j : J, j.Texts ValidUTF8 → Her Utf8Node (toV E j)
  | .null, _ => her_leaf trivial trivial
  | .bool b, _ => her_leaf trivial trivial
  | .num t, _ => her_leaf trivial trivial
  | .str t, h => her_leaf h trivial
  | .arr xs, h => by
    have ih := utf8_toVL xs h
    rw [her_iff]
    refine ⟨trivial, fun s c h => ?_⟩
    match s, h with
    | .idx i, h => exact ih c (List.mem_of_getElem? h)
  | .obj ms, h => by
    have ih := utf8_toVM ms {} (by intro e h; simp at h) h
    rw [her_iff]
    refine ⟨toVM_keys ms {} (by intro e h; simp at h) h, fun s c h => ?_⟩
    match s, h with
    | .key k, h =>
      simp only [toV, child_key] at h
      cases hl : lookup k (toVM E ms {}).kvs with
      | none => rw [hl] at h; cases h
      | some e => rw [hl] at h; cases h; exact ih e (lookup_some_key hl).2
theorem utf8_toVL : ∀ xs : List J, TextsL ValidUTF8 xs → ∀ c, c ∈ toVL E xs → Her Utf8Node c
  | [], _, c, h => by simp [toVL] at h
  | x :: xs, ht, c, h => by
    have h1 := utf8_toV x ht.1
    have h2 := utf8_toVL xs ht.2 c
    simp [toVL] at h
    rcases h with rfl | h
    · exact h1
    · exact h2 h
theorem utf8_toVM : ∀ (ms : List Mem) (st : OSt), (∀ e ∈ st.kvs, Her Utf8Node e.v) → TextsM ValidUTF8 ms → ∀ e ∈ (toVM E ms st).kvs, Her Utf8Node e.v
  | [], st, h, _ => h
  | ⟨k, v⟩ :: ms, st, h, ht => by
    have h1 := utf8_toV v ht.2.1
    exact utf8_toVM ms _ (fun e he => by
      rcases mem_assign he with rfl | he
      · exact h1
      · exact h e he) ht.2.2
end

/-! caseless reading -/

theorem locate_kids (cl : Bool) (v : V) (p : Param) (s : Step) : (locate E cl v p).1.child s = v.child s := by
  cases v with
  | arr xs => rw [locate_arr]
  | obj n kvs low =>
    simp only [locate]
    cases anyToString p with
    | ok k =>
      dsimp only
      generalize findKey E cl kvs low k = r
      obtain ⟨low', o⟩ := r
      cases o <;> cases s <;> rfl
    | _ => rfl
  | _ => rfl

theorem alike_caseless_locate {L : V → V → Prop} (hL : LeafRel L) {v w : V} (h : Alike L v w) (gv : Her (GoodNode E) v) (gw : Her (GoodNode E) w) (hu : Her (LowUnique E) v)
    (p : Param) : Pair L (locate E true v p) (locate E true w p) := by
  rcases alike_cases hL h with ⟨rfl, rfl⟩ | ⟨rfl, rfl⟩ | ⟨h1, h2⟩ | ⟨xs, ys, rfl, rfl, ha⟩ | ⟨n, kvs, low, n', kvs', low', rfl, rfl, k1, k2, h3, h4⟩
  · exact ⟨h, rfl⟩
  · exact ⟨h, rfl⟩
  · rw [basic_locate h1, basic_locate h2]; exact ⟨h, rfl⟩
  · simp only [locate, ha.len]
    cases anyToInt p with
    | ok z =>
      dsimp only
      split
      · exact ⟨h, rfl⟩
      · split <;> exact ⟨h, rfl⟩
    | _ => exact ⟨h, rfl⟩
  · simp only [locate]
    cases anyToString p with
    | ok k =>
      dsimp only
      have hm : ∀ k, k ∈ keys kvs ↔ k ∈ keys kvs' := fun k => by rw [← lookup_isSome, ← lookup_isSome, h3 k]
      have hf : (findKey E true kvs low k).2 = (findKey E true kvs' low' k).2 := by
        have c1 := findKey_true (key := k) (her_self gv : GoodNode E _).2
        have c2 := findKey_true (key := k) (her_self gw : GoodNode E _).2
        rcases c1 with ⟨a1, a2⟩ | ⟨a1, x, a2, a3, a4⟩ | ⟨a1, a2⟩ <;> rcases c2 with ⟨b1, b2⟩ | ⟨b1, y, b2, b3, b4⟩ | ⟨b1, b2⟩
        · rw [a2, b2]
        · exact absurd ((hm k).1 a1) b1
        · exact absurd rfl (b2 k ((hm k).1 a1))
        · exact absurd ((hm k).2 b1) a1
        · rw [a2, b2, (her_self hu : LowUnique E _) x y a3 ((hm y).2 b3) (a4.trans b4.symm)]
        · exact absurd a4 (b2 x ((hm x).1 a3))
        · exact absurd rfl (a2 k ((hm k).2 b1))
        · exact absurd b4 (a2 y ((hm y).2 b3))
        · rw [a1, b1]
      generalize findKey E true kvs low k = r at hf
      generalize findKey E true kvs' low' k = r' at hf
      obtain ⟨l1, o1⟩ := r
      obtain ⟨l2, o2⟩ := r'
      simp only at hf
      subst hf
      have ho : ∀ l l', Alike L (.obj n kvs l) (.obj n' kvs' l') := fun _ _ => alike_obj k1 k2 h3 h4
      cases o1 <;> exact ⟨ho _ _, rfl⟩
    | _ => exact ⟨h, rfl⟩

mutual
theorem alike_caseless_resolve1 {L : V → V → Prop} (hL : LeafRel L) : ∀ (p : Param) {v w : V}, Alike L v w → Her (GoodNode E) v → Her (GoodNode E) w → Her (LowUnique E) v →
    Pair L (resolve1 E true v p) (resolve1 E true w p)
  | .slice qs, v, w, h, gv, gw, hu => by
    simp only [resolve1]
    split
    · have := alike_caseless_locate (E := E) hL h gv gw hu .nil
      exact ⟨this.1, by rw [this.2]⟩
    · exact alike_caseless_resolve hL qs h gv gw hu
  | .nil, v, w, h, gv, gw, hu => by
    simp only [resolve1]; have := alike_caseless_locate (E := E) hL h gv gw hu .nil; exact ⟨this.1, by rw [this.2]⟩
  | .int i, v, w, h, gv, gw, hu => by
    simp only [resolve1]; have := alike_caseless_locate (E := E) hL h gv gw hu (.int i); exact ⟨this.1, by rw [this.2]⟩
  | .uint i, v, w, h, gv, gw, hu => by
    simp only [resolve1]; have := alike_caseless_locate (E := E) hL h gv gw hu (.uint i); exact ⟨this.1, by rw [this.2]⟩
  | .str i, v, w, h, gv, gw, hu => by
    simp only [resolve1]; have := alike_caseless_locate (E := E) hL h gv gw hu (.str i); exact ⟨this.1, by rw [this.2]⟩
  | .other, v, w, h, gv, gw, hu => by
    simp only [resolve1]; have := alike_caseless_locate (E := E) hL h gv gw hu .other; exact ⟨this.1, by rw [this.2]⟩
termination_by structural p => p
theorem alike_caseless_resolve {L : V → V → Prop} (hL : LeafRel L) : ∀ (ps : List Param) {v w : V}, Alike L v w → Her (GoodNode E) v → Her (GoodNode E) w → Her (LowUnique E) v →
    Pair L (resolve E true v ps) (resolve E true w ps)
  | [], _, _, h, _, _, _ => ⟨h, rfl⟩
  | p :: rest, v, w, h, gv, gw, hu => by
    rw [resolve, resolve]
    by_cases hr : rest.isEmpty = true
    · rw [if_pos hr, if_pos hr]; exact alike_caseless_resolve1 hL p h gv gw hu
    · rw [if_neg hr, if_neg hr]
      by_cases hp : p.isSlice = true
      · rw [if_pos hp, if_pos hp]; exact ⟨h, rfl⟩
      · rw [if_neg hp, if_neg hp]
        have hl := alike_caseless_locate (E := E) hL h gv gw hu p
        have h1 := locate_kids (E := E) true v p
        have h2 := locate_kids (E := E) true w p
        generalize locate E true v p = a at hl h1
        generalize locate E true w p = b at hl h2
        obtain ⟨a1, a2⟩ := a
        obtain ⟨b1, b2⟩ := b
        obtain ⟨hl1, hl⟩ := hl
        simp only at hl hl1 h1 h2
        subst hl
        cases a2 with
        | ok s =>
          dsimp only
          have hc := alike_child hL hl1 s
          have k1 := h1 s
          have k2 := h2 s
          generalize ha : a1.child s = a at hc k1
          generalize hb : b1.child s = b at hc k2
          cases hc with
          | none => exact ⟨hl1, rfl⟩
          | some hc =>
            have := alike_caseless_resolve hL rest hc ((her_iff.1 gv).2 s _ k1.symm) ((her_iff.1 gw).2 s _ k2.symm) ((her_iff.1 hu).2 s _ k1.symm)
            exact ⟨alike_put hL hl1 s this.1, by dsimp only; rw [this.2]⟩
        | _ => exact ⟨hl1, rfl⟩
termination_by structural ps => ps
end

theorem alike_caseless_get {L : V → V → Prop} (hL : LeafRel L) {v w : V} (h : Alike L v w) (gv : Her (GoodNode E) v) (gw : Her (GoodNode E) w) (hu : Her (LowUnique E) v)
    (ps : List Param) : Alike L (getC E true v ps).1 (getC E true w ps).1 ∧ ResAlike (Alike L) (getC E true v ps).2 (getC E true w ps).2 := by
  obtain ⟨h1, h2⟩ := alike_caseless_resolve hL ps h gv gw hu
  refine ⟨h1, ?_⟩
  simp only [getC, fetch, h2]
  generalize (resolve E true v ps).1 = v at h1
  generalize (resolve E true w ps).1 = w' at h1
  cases hr : (resolve E true w ps).2 with
  | ok l =>
    show ResAlike _ (match v.at l with | some c => R.ok c | none => .panic) (match w'.at l with | some c => R.ok c | none => .panic)
    have := alike_at hL l h1
    generalize v.at l = a, w'.at l = b at this
    cases this with
    | none => exact .panic
    | some h => exact .ok _ _ h
  | err e => exact .err e
  | panic => exact .panic
  | diverge => exact .diverge

/-! integers of Go -/

theorem newUint64_canon (u : BitVec 64) : Canon E (newUint64 E u) := by
  obtain ⟨ip, h1, h2⟩ := fmtUint_spec u
  have hlt := u.isLt
  obtain ⟨n, h3, -⟩ := unmarshal_int E h1 (by omega) (by omega)
  have hd := intPart_digits h1.1
  show unmarshal E (fmtUint u) = .ok (newUint64 E u)
  have h4 := h3
  rw [h1.2] at h4
  obtain ⟨-, h5⟩ := unmarshal_intText hd.1 hd.2.1 h4
  rw [h3]
  rw [← h1.2] at h5
  cases h5
  have : decVal ip = u.toNat := by simp [intVal] at h2; omega
  simp [newUint64, intNum, this]

theorem newInt64_canon (hE : Ieee E) (i : BitVec 64) : Canon E (newInt64 E i) := by
  obtain ⟨ip, h1, h2⟩ := fmtInt_spec i
  have hlo : -2 ^ 63 ≤ i.toInt := BitVec.le_toInt i
  have hhi : i.toInt < 2 ^ 63 := BitVec.toInt_lt
  obtain ⟨n, h3, -⟩ := unmarshal_int E h1 (by omega) (by omega)
  have hd := intPart_digits h1.1
  show unmarshal E (fmtInt i) = .ok (newInt64 E i)
  have h4 := h3
  rw [h1.2] at h4
  obtain ⟨-, h5⟩ := unmarshal_intText hd.1 hd.2.1 h4
  rw [h3]
  rw [← h1.2] at h5
  cases h5
  obtain ⟨b, hb1, hb2⟩ := hE.i64 i
  by_cases hn : i.toInt < 0
  · obtain ⟨c, hc1, hc2⟩ := hE.u64 (BitVec.ofNat 64 (decVal ip))
    simp only [hn, decide_true, intVal, if_true] at h2
    have hdv : decVal ip = i.toInt.natAbs := by omega
    have hci : BitVec.ofInt 64 (-(decVal ip : Int)) = i := by rw [h2]; simp
    have : (BitVec.ofNat 64 (decVal ip)).toNat = i.toInt.natAbs := by
      rw [BitVec.toNat_ofNat, hdv]; omega
    rw [this] at hc1
    have := nearest_unique hb1 hc1
    subst this
    have hbl : b < 2 ^ 63 := by have := hb1.le; have : double.inf < 2 ^ 63 := by decide +kernel
                                omega
    simp only [hn, decide_true] at hb2
    simp [newInt64, intNum, hn, hci, hb2, hc2, fneg_pack hbl]
  · simp only [hn, decide_false, intVal] at h2
    have hdv : decVal ip = i.toNat := by
      have := BitVec.toInt_eq_toNat_cond (x := i)
      split at this <;> simp at h2 <;> omega
    have hci : BitVec.ofNat 64 (decVal ip) = i := by rw [hdv]; simp
    obtain ⟨c, hc1, hc2⟩ := hE.u64 i
    have : (i.toNat : Rat) = (i.toInt.natAbs : Rat) := by
      congr 1
      simp at h2
      omega
    rw [this] at hc1
    have := nearest_unique hb1 hc1
    subst this
    simp only [hn, decide_false] at hb2
    simp [newInt64, intNum, hn, hci, hb2, hc2]

end JV
