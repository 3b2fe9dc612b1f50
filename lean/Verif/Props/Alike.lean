import Verif.Spec.Alike
import Verif.Proofs.Alike
import Verif.Model.Describe
import Verif.Props.Compare
import Verif.Props.Nondet
/-!
C77: Equal values cannot be told apart by Get and stay Equal under the same changes.
-/
namespace JV
open Spec

/-- children of a change that are Equal -/
def EqualChild (D : DecFn) (c d : V) : Prop := Her KeysNodup c ∧ Her KeysNodup d ∧ equal D c d = true

/-- children of a change that are the same up to the order of members -/
def SameChild (c d : V) : Prop := Her KeysNodup c ∧ Her KeysNodup d ∧ Same c d

theorem equal_alike {D : DecFn} {v w : V} (h : EqualChild D v w) : Alike (EqLeaf (valOf D)) v w :=
  alike_of_equalTo ((equal_iff D v w h.1 h.2.1).1 h.2.2) h.1 h.2.1

theorem alike_equal {D : DecFn} {v w : V} (h : Alike (EqLeaf (valOf D)) v w) : EqualChild D v w := by
  obtain ⟨h1, h2⟩ := alike_keys (leafRel_eq _) h
  exact ⟨h1, h2, (equal_iff D v w h1 h2).2 (equalTo_of_alike h)⟩

/-- Get on Equal values: the same error or panic, or Equal results. -/
theorem C77_get (E : Env) (D : DecFn) (v w : V) (hv : Her KeysNodup v) (hw : Her KeysNodup w) (h : equal D v w = true) (ps : List Param) :
    ResAlike (fun a b => equal D a b = true) (get E v ps) (get E w ps) :=
  res_imp (alike_get (leafRel_eq _) (equal_alike ⟨hv, hw, h⟩) ps) fun _ _ h => (alike_equal h).2.2

/-- The same sequence of Set, Insert, Append and Delete on Equal values, with Equal children: every call returns the same (error, panic, place of the
child), and the values are Equal in the end. -/
theorem C77_changes (E : Env) (D : DecFn) (v w : V) (hv : Her KeysNodup v) (hw : Her KeysNodup w) (h : equal D v w = true) (as bs : List Change)
    (hp : ProgAlike (EqualChild D) as bs) :
    (changes E v as).2 = (changes E w bs).2 ∧ equal D (changes E v as).1 (changes E w bs).1 = true := by
  obtain ⟨h1, h2⟩ := alike_changes (E := E) (leafRel_eq (valOf D)) (prog_imp hp fun _ _ h => equal_alike h) (equal_alike ⟨hv, hw, h⟩)
  exact ⟨h2, (alike_equal h1).2.2⟩

/-- In particular with one and the same program, whose children exist. -/
theorem C77_same_program (E : Env) (D : DecFn) (v w : V) (hv : Her KeysNodup v) (hw : Her KeysNodup w) (h : equal D v w = true) (as : List Change)
    (hp : ∀ a ∈ as, match a with
      | .set ch _ => ch.err = none → Her KeysNodup ch.c ∧ Her Solid ch.c
      | .insert _ ch _ => ch.err = none → Her KeysNodup ch.c ∧ Her Solid ch.c
      | .append _ ch _ => Her KeysNodup ch.c ∧ Her Solid ch.c
      | .delete _ => True) :
    (changes E v as).2 = (changes E w as).2 ∧ equal D (changes E v as).1 (changes E w as).1 = true := by
  refine C77_changes E D v w hv hw h as as ?_
  have hr : ∀ c, Her KeysNodup c ∧ Her Solid c → EqualChild D c c := fun c hc => ⟨hc.1, hc.1, (C32_reflexive D c hc.1).2 hc.2⟩
  clear h
  induction as with
  | nil => exact .nil
  | cons a as ih =>
    refine .cons _ _ _ _ ?_ (ih fun b hb => hp b (by simp [hb]))
    have := hp a (by simp)
    cases a with
    | set ch ps => exact .set _ _ _ ⟨rfl, fun he => hr _ (this he)⟩
    | insert f ch ps => exact .insert _ _ _ _ ⟨rfl, fun he => hr _ (this he)⟩
    | append f ch ps => exact .append _ _ _ _ (hr _ this)
    | delete ps => exact .delete _

/-- Len, the type and the type predicates that do not look into numbers are the same for Equal values. -/
theorem C77_observers (D : DecFn) (v w : V) (hv : Her KeysNodup v) (hw : Her KeysNodup w) (h : equal D v w = true) :
    len v = len w ∧ valueType v = valueType w ∧ isObject v = isObject w ∧ isArray v = isArray w ∧ isString v = isString w ∧ isNumber v = isNumber w ∧
    isBoolean v = isBoolean w ∧ isNull v = isNull w := by
  have h := (equal_iff D v w hv hw).1 h
  cases h with
  | obj n kvs low n' kvs' low' hk _ =>
    refine ⟨?_, rfl, rfl, rfl, rfl, rfl, rfl, rfl⟩
    have h1 : (keys kvs).Nodup := her_self hv
    have h2 : (keys kvs').Nodup := her_self hw
    have hm : ∀ k, k ∈ keys kvs ↔ k ∈ keys kvs' := fun k => by
      rw [← lookup_isSome, ← lookup_isSome]
      have := hk k
      simp only [members, V.child, Option.isSome_map] at this
      rw [this]
    have := ((List.perm_ext_iff_of_nodup h1 h2).2 hm).length_eq
    simp only [keys, List.length_map] at this
    simp only [len, this]
  | arr xs ys hl _ => exact ⟨by simp only [len, hl], rfl, rfl, rfl, rfl, rfl, rfl, rfl⟩
  | _ => exact ⟨rfl, rfl, rfl, rfl, rfl, rfl, rfl, rfl⟩

/-- GetString and GetNull return the same on Equal values; so do GetInt … GetFloat32 and GetBool, except where the path leads to a number. -/
theorem C77_typed (E : Env) (D : DecFn) (v w : V) (hv : Her KeysNodup v) (hw : Her KeysNodup w) (h : equal D v w = true) (ps : List Param) :
    getString E false v ps = getString E false w ps ∧ getNull E false v ps = getNull E false w ps ∧
    ((∀ c, get E v ps = .ok c → ¬ IsNum c) →
      getInt64 E false v ps = getInt64 E false w ps ∧ getUint64 E false v ps = getUint64 E false w ps ∧ getInt32 E false v ps = getInt32 E false w ps ∧
      getUint32 E false v ps = getUint32 E false w ps ∧ getFloat64 E false v ps = getFloat64 E false w ps ∧ getFloat32 E false v ps = getFloat32 E false w ps ∧
      getBool E false v ps = getBool E false w ps) := by
  have hg := res_imp (alike_get (E := E) (leafRel_eq _) (equal_alike ⟨hv, hw, h⟩) ps) fun a b h => equalTo_of_alike h
  refine ⟨typedGet_alike hg ?_, typedGet_alike hg ?_, fun hn => ?_⟩
  · intro a b _ hab; cases hab <;> rfl
  · intro a b _ hab; cases hab <;> rfl
  · have hnum : ∀ {α : Type} (f : V → R α) (zero : α), typedGet E false zero (convNum E f) v ps = typedGet E false zero (convNum E f) w ps := fun f zero =>
      typedGet_alike hg fun a b ha hab => by
        have := hn a ha
        cases hab with
        | num => exact absurd trivial this
        | _ => rfl
    refine ⟨hnum _ _, hnum _ _, hnum _ _, hnum _ _, hnum _ _, hnum _ _, typedGet_alike hg fun a b ha hab => ?_⟩
    have := hn a ha
    cases hab with
    | num => exact absurd trivial this
    | _ => rfl

/-- A value and what Unmarshal makes of its text: a program of reads and changes goes the same on both. -/
theorem C77_reparsed (E : Env) (S : SortFn) (D : DecFn) (d : Opt) (v : V) (opts : List MOpt) (hS : GoodSort S) (hk : Her KeysNodup v) (hp : Her (Portable E) v)
    (hi : BlankIndent (combineOptions d opts).indent) (ho : (combineOptions d opts).omitNull = false) (as bs : List Change) (hpr : ProgAlike (EqualChild D) as bs) :
    ∃ b w, marshal E S d v opts = .ok (b, none) ∧ goUnmarshal E b = .ok (b, w, none) ∧
      (changes E v as).2 = (changes E w bs).2 ∧ equal D (changes E v as).1 (changes E w bs).1 = true ∧
      ∀ ps, ResAlike (fun a b => equal D a b = true) (get E (changes E v as).1 ps) (get E (changes E w bs).1 ps) := by
  obtain ⟨b, w, h1, h2, h3⟩ := C09_roundtrip_partial E S D d v opts hS hk hp hi
  rw [ho] at h3
  have hwk : Her KeysNodup w := fun l c hc => by
    have := her_unmarshal_good (goUnmarshal_ok.1 h2).2 l c hc
    cases c with
    | obj n kvs low => exact this.1
    | _ => trivial
  have hal := alike_changes (E := E) (leafRel_eq (valOf D)) (prog_imp hpr fun _ _ h => equal_alike h) (equal_alike ⟨hk, hwk, h3⟩)
  exact ⟨b, w, h1, h2, hal.2, (alike_equal hal.1).2.2, fun ps => res_imp (alike_get (leafRel_eq _) hal.1 ps) fun _ _ h => (alike_equal h).2.2⟩

/-- Values that are the same but for the order of members, the recorded order of setting and the caches: the same results, and the same values in the
end. -/
theorem C77_same (E : Env) (v w : V) (hv : Her KeysNodup v) (hw : Her KeysNodup w) (h : Same v w) (as bs : List Change) (hp : ProgAlike SameChild as bs) :
    (changes E v as).2 = (changes E w bs).2 ∧ Same (changes E v as).1 (changes E w bs).1 ∧
      ∀ ps, ResAlike Same (get E (changes E v as).1 ps) (get E (changes E w bs).1 ps) := by
  have hal := alike_changes (E := E) leafRel_same (prog_imp hp fun _ _ h => alike_of_same h.2.2 h.1 h.2.1) (alike_of_same h hv hw)
  exact ⟨hal.2, same_of_alike hal.1, fun ps => res_imp (alike_get leafRel_same hal.1 ps) fun _ _ h => same_of_alike h⟩

/-- The order in which Go visits maps is invisible to programs of Get, Set, Insert, Append and Delete. -/
theorem C77_map_order (E : Env) (v w : V) (hv : Her KeysNodup v) (h : Shuffled v w) (as : List Change)
    (hp : ∀ a ∈ as, match a with
      | .set ch _ => ch.err = none → Her KeysNodup ch.c
      | .insert _ ch _ => ch.err = none → Her KeysNodup ch.c
      | .append _ ch _ => Her KeysNodup ch.c
      | .delete _ => True) :
    (changes E v as).2 = (changes E w as).2 ∧ Same (changes E v as).1 (changes E w as).1 ∧
      ∀ ps, ResAlike Same (get E (changes E v as).1 ps) (get E (changes E w as).1 ps) := by
  refine C77_same E v w hv (her_shuffled keysNodup_shuffled hv hv h) (shuffled_same h hv) as as ?_
  have hr : ∀ c, Her KeysNodup c → SameChild c c := fun c hc => ⟨hc, hc, same_refl c⟩
  clear h
  induction as with
  | nil => exact .nil
  | cons a as ih =>
    refine .cons _ _ _ _ ?_ (ih fun b hb => hp b (by simp [hb]))
    have := hp a (by simp)
    cases a with
    | set ch ps => exact .set _ _ _ ⟨rfl, fun he => hr _ (this he)⟩
    | insert f ch ps => exact .insert _ _ _ _ ⟨rfl, fun he => hr _ (this he)⟩
    | append f ch ps => exact .append _ _ _ _ (hr _ this)
    | delete ps => exact .delete _

/-! what may differ -/

theorem twoKeys_her {n : BitVec 32} {a b : Ent} {low : Low} (h : ([a, b].map Ent.key).Nodup) (ha : IsScalar a.v := by trivial) (hb : IsScalar b.v := by trivial) :
    Her KeysNodup (.obj n [a, b] low) := by
  refine her_of_kids h fun c hc => ?_
  have : c = a.v ∨ c = b.v := by simpa [Kid, eq_comm] using hc
  rcases this with rfl | rfl
  · exact her_leaf (by cases h : a.v <;> simp_all [IsScalar, KeysNodup]) ha
  · exact her_leaf (by cases h : b.v <;> simp_all [IsScalar, KeysNodup]) hb

/-- Equal values can be told apart by looking into a number (`1` and `1.0`), by a caseless lookup that more than one key fits, and by the text. -/
theorem C77_counterexample (S : SortFn) :
    (∃ v w, Her KeysNodup v ∧ Her KeysNodup w ∧ equal newFromString v w = true ∧ isFloat v ≠ isFloat w ∧
      marshal sampleEnv S emptyOptions v [] ≠ marshal sampleEnv S emptyOptions w []) ∧
    (∃ v w, Her KeysNodup v ∧ Her KeysNodup w ∧ equal newFromString v w = true ∧
      (getC sampleEnv true v [.str (asc "aA")]).2 ≠ (getC sampleEnv true w [.str (asc "aA")]).2) := by
  refine ⟨⟨.num (asc "1") default, .num (asc "1.0") { (default : Num) with floated := true }, her_leaf trivial trivial, her_leaf trivial trivial, by decide +kernel,
      by decide, ?_⟩, .obj 2 [⟨asc "aa", 1, .null⟩, ⟨asc "AA", 2, .bool true⟩] none, .obj 2 [⟨asc "AA", 2, .bool true⟩, ⟨asc "aa", 1, .null⟩] none, ?_, ?_,
      by decide +kernel, ?_⟩
  · rw [show marshal sampleEnv S emptyOptions (.num (asc "1") default) [] = .ok (asc "1", none) from rfl,
      show marshal sampleEnv S emptyOptions (.num (asc "1.0") { (default : Num) with floated := true }) [] = .ok (asc "1.0", none) from rfl]
    simp [asc]
  · exact twoKeys_her (by decide)
  · exact twoKeys_her (by decide)
  · rw [show (getC sampleEnv true (.obj 2 [⟨asc "aa", 1, .null⟩, ⟨asc "AA", 2, .bool true⟩] none) [.str (asc "aA")]).2 = .ok .null from rfl,
      show (getC sampleEnv true (.obj 2 [⟨asc "AA", 2, .bool true⟩, ⟨asc "aa", 1, .null⟩] none) [.str (asc "aA")]).2 = .ok (.bool true) from rfl]
    simp

-- two Equal objects in another order, with other numbering and another spelling of a number, and a program for them
def sampleEqL : V := .obj 2 [⟨asc "a", 1, .num (asc "100") default⟩, ⟨asc "b", 2, .null⟩] none
def sampleEqR : V := .obj 9 [⟨asc "b", 3, .null⟩, ⟨asc "a", 8, .num (asc "1.0E+2") default⟩] none
def sampleProg : List Change :=
  [.set ⟨.str (asc "x"), none⟩ [.str (asc "c"), .str (asc "d")], .append true ⟨.null, none⟩ [.str (asc "e")], .insert false ⟨.bool true, none⟩ [.str (asc "e"), .int 0],
    .delete [.str (asc "a")], .delete [.str (asc "a")], .set ⟨.notExist, some .other⟩ [.str (asc "z")]]

example : Her KeysNodup sampleEqL ∧ Her KeysNodup sampleEqR ∧ equal newFromString sampleEqL sampleEqR = true :=
  ⟨twoKeys_her (by decide), twoKeys_her (by decide), by decide +kernel⟩
example : ∀ a ∈ sampleProg, match a with
      | .set ch _ => ch.err = none → Her KeysNodup ch.c ∧ Her Solid ch.c
      | .insert _ ch _ => ch.err = none → Her KeysNodup ch.c ∧ Her Solid ch.c
      | .append _ ch _ => Her KeysNodup ch.c ∧ Her Solid ch.c
      | .delete _ => True := by
  intro a ha
  simp only [sampleProg, List.mem_cons, List.not_mem_nil, or_false] at ha
  rcases ha with rfl | rfl | rfl | rfl | rfl | rfl
  · exact fun _ => ⟨her_leaf trivial trivial, her_leaf (by simp [Solid]) trivial⟩
  · exact ⟨her_leaf trivial trivial, her_leaf (by simp [Solid]) trivial⟩
  · exact fun _ => ⟨her_leaf trivial trivial, her_leaf (by simp [Solid]) trivial⟩
  · trivial
  · trivial
  · exact fun h => nomatch h
example : (changes sampleEnv sampleEqL sampleProg).2 =
    [.ok (some [.key (asc "c"), .key (asc "d")]), .ok (some [.key (asc "e"), .idx 0]), .ok (some [.key (asc "e"), .idx 0]), .ok none, .err .notFound, .err .other] := rfl
example : Shuffled sampleEqL (.obj 2 [⟨asc "b", 2, .null⟩, ⟨asc "a", 1, .num (asc "100") default⟩] none) :=
  .obj 2 _ [⟨asc "b", 2, .null⟩, ⟨asc "a", 1, .num (asc "100") default⟩] _ none (.swap _ _ _) rfl
    (fun i e f he hf => by rw [he] at hf; cases hf; exact ⟨rfl, rfl⟩) (fun i e f he hf => by rw [he] at hf; cases hf; exact .refl _)

end JV
