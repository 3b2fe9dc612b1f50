import Verif.Proofs.Imported
import Verif.Props.Calls
import Verif.Props.GoApi
/-!
C70: imported values are ordinary values.
-/
namespace JV
open Spec

/-- Whatever Import returns is a value that public calls could have made, if the `*V` in the data are such: what holds for all built values
(C26, C27) holds for it. -/
theorem C70_import (E : Env) (S : SortFn) (F : FloatText) (ig : Bool) (x : GoVal) (v : V) (e : Option Err) (hj : AllJV (Built E Any) x)
    (h : goImport E S F ig x = .ok (v, e)) : Built E Any v := goImport_built hj h

/-- Import of sane data (Spec/GoSane) returns a value without nil pointers inside, with or without an error. -/
theorem C70_usable (E : Env) (S : SortFn) (F : FloatText) (ig : Bool) (x : GoVal) (hS : GoodSort S) (hj : AllJV (Built E Any) x) (hx : SaneV true x) :
    ∃ v e, goImport E S F ig x = .ok (v, e) ∧ Usable E v := by
  obtain ⟨v, e, h1, h2, -⟩ := C53_partial E S F ig x hS hx
  exact ⟨v, e, h1, C70_import E S F ig x v e hj h1, h2⟩

/-- New likewise -/
theorem C70_new (E : Env) (S : SortFn) (F : FloatText) (ig : Bool) (x : GoVal) (hS : GoodSort S) (hj : AllJV (Built E Any) x) (hx : SaneV true x) :
    ∃ v, goNew E S F ig x = .ok v ∧ Usable E v := by
  obtain ⟨v, e, h1, h2⟩ := C70_usable E S F ig x hS hj hx
  exact ⟨v, by simp only [goNew, h1]; rfl, h2⟩

/-- Any calls on an imported value: one that panics is a conversion to a number; without conversions all come back. -/
theorem C70_calls {σ : Type} (E : Env) (S : SortFn) (F : FloatText) (D : DecFn) (d : Opt) (ig : Bool) (x : GoVal) (cs : List (Call σ)) (hS : GoodSort S) (hj : AllJV (Built E Any) x)
    (hx : SaneV true x) (hc : ∀ c ∈ cs, ArgsBuilt E c) :
    ∃ v e, goImport E S F ig x = .ok (v, e) ∧
      (∀ i : Nat, (Call.runs E S D d v cs).2[i]? = some R.panic → ∃ c : Call σ, cs[i]? = some c ∧ IsConv c) ∧
      ((∀ c ∈ cs, ¬ IsConv c) → (Call.runs E S D d v cs).2.length = cs.length ∧ ∀ r ∈ (Call.runs E S D d v cs).2, r.returns) := by
  obtain ⟨v, e, h1, h2⟩ := C70_usable E S F ig x hS hj hx
  obtain ⟨-, p1, p2, p3⟩ := C69_programs E S D d cs v h2 hc
  refine ⟨v, e, h1, p1, fun hn => ⟨p3 hn, fun r hr => ?_⟩⟩
  cases r with
  | ok _ => trivial
  | err _ => trivial
  | diverge => exact absurd hr p2
  | panic =>
    obtain ⟨i, hi⟩ := List.getElem?_of_mem hr
    obtain ⟨c, h3, h4⟩ := p1 i hi
    exact absurd h4 (hn c (List.mem_of_getElem? h3))

/-- Set, Insert and Append with sane Go data keep the value usable (a `*V` itself is taken as it is, and must be without nil pointers). -/
theorem C70_children (E : Env) (S : SortFn) (F : FloatText) (ig : Bool) (v : V) (x : GoVal) (p : Param) (ps : List Param) (hS : GoodSort S) (hv : Usable E v) (hj : AllJV (Built E Any) x)
    (hx : SaneV true x) (hn : ∀ w, x = .jv w → NoNil w) :
    (Usable E (setGo E S F ig v x (p :: ps)).1 ∧ (setGo E S F ig v x (p :: ps)).2.returns) ∧
    (∀ after, Usable E (insertGo E S F ig after v x (p :: ps)).1 ∧ (insertGo E S F ig after v x (p :: ps)).2.returns) ∧
    ∀ beg, Usable E (appendGo E S F ig beg v x ps).1 ∧ (appendGo E S F ig beg v x ps).2.returns := by
  have hc : ∃ ch, childOf E S F ig x = .ok ch ∧ Usable E ch.c := by
    have imp : (∀ w, x ≠ .jv w) → x ≠ .invalid → ∃ ch, childOf E S F ig x = .ok ch ∧ Usable E ch.c := fun h1 h2 => by
      obtain ⟨w, e, h3, h4⟩ := C70_usable E S F ig x hS hj hx
      refine ⟨{ c := w, err := e }, ?_, h4⟩
      unfold childOf
      cases x <;> first | exact absurd rfl h2 | exact absurd rfl (h1 _) | (simp only [h3]; rfl)
    cases x with
    | invalid => exact ⟨_, rfl, built_usable (.scalar _ trivial nofun)⟩
    | jv w => exact ⟨_, rfl, hj, hn w rfl⟩
    | _ => exact imp nofun nofun
  obtain ⟨ch, h1, h2⟩ := hc
  have hP := (closed_good E).and (closed_notNil E)
  have hh := usable_her hv
  simp only [setGo, insertGo, appendGo, withChild, h1]
  exact ⟨⟨usable_of (.set v ch _ hv.1 h2.1) (her_set hP _ hh (usable_her h2)), set_returns (by simp)⟩,
    fun after => ⟨usable_of (.insert after v ch _ hv.1 h2.1) (her_insert hP after _ hh (usable_her h2)), insert_returns after (by simp) hv.2⟩,
    fun beg => ⟨usable_of (.append beg v ch _ hv.1 h2.1) (her_append hP beg _ hh (usable_her h2)), append_returns beg hv.2⟩⟩

-- {"A": 1, "b": [true, <a *V>]}: a struct with an embedded struct
example : AllJV (Built sampleEnv Any) (.struct [.mk (asc "A") [] false true (.int 1), .mk (asc "E") [] true true (.struct [.mk (asc "B") (asc "b") false true (.slice [.bool true, .jv newObject])])]) :=
  ⟨trivial, ⟨⟨trivial, .object, trivial⟩, trivial⟩, trivial⟩
example : SaneV true (.struct [.mk (asc "A") [] false true (.int 1), .mk (asc "E") [] true true (.struct [.mk (asc "B") (asc "b") false true (.slice [.bool true, .jv newObject])])]) :=
  ⟨.inr trivial, .inr ⟨.inr ⟨trivial, ⟨by simp [newObject], (usable_keys (built_usable (E := sampleEnv) .object))⟩, trivial⟩, trivial⟩, trivial⟩
example : (match goImport sampleEnv insertionSort (fun _ _ => []) false
      (.struct [.mk (asc "A") [] false true (.int 1), .mk (asc "E") [] true true (.struct [.mk (asc "B") (asc "b") false true (.slice [.bool true, .jv newObject])])]) with
    | .ok (v, _) => (Call.runs (σ := Unit) sampleEnv insertionSort (fun _ => none) emptyOptions v
      [.getNum .int64 true (.str (asc "a")) [], .get false (.str (asc "b")) [.int (-1)], .delete false (.str (asc "b")) [.int 0], .len, .marshal []]).2
    | _ => []) = [.ok (), .ok (), .ok (), .ok (), .ok ()] := by decide +kernel

end JV
