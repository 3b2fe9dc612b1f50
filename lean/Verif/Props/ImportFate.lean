import Verif.Proofs.ImportFate
import Verif.Props.Import
import Verif.Props.GoApi
/-!
C53: exactly when Import panics, exactly when it returns an error. Import looks at the parts of its argument one after the other
(`Spec.looked`); the first that is forbidden or refused decides.
-/
namespace JV
open Spec

/-- Import of any Go value: it returns a value if no part it looks at is forbidden or refused; an error, with a NotExist value, if the first such
part is refused; and it panics if the first such part is forbidden. -/
theorem C53_exact (E : Env) (S : SortFn) (F : FloatText) (ig : Bool) (x : GoVal) :
    ((∃ v, goImport E S F ig x = .ok (v, none)) ↔ ∀ q ∈ looked E .open x, ¬ Forbidden q ∧ ¬ Refused E q) ∧
    ((∃ e, goImport E S F ig x = .ok (.notExist, some e)) ↔ FirstBad E (Refused E) (looked E .open x)) ∧
    (goImport E S F ig x = .panic ↔ FirstBad E Forbidden (looked E .open x)) ∧
    goImport E S F ig x ≠ .diverge := by
  rcases fate_val (E := E) (S := S) (F := F) x { ignoreOmitempty := ig } .no with ⟨v, h1, -, h2⟩ | ⟨e, h1, h2⟩ | ⟨h1, h2⟩
  · have hg : goImport E S F ig x = .ok (v, none) := by simp only [goImport, h1]
    rw [hg]
    refine ⟨⟨fun _ => h2, fun _ => ⟨v, rfl⟩⟩, ⟨fun ⟨_, h⟩ => (nomatch h), fun h => (firstBad_not_all h (fun _ hp => .inr hp) h2).elim⟩,
      ⟨fun h => (nomatch h), fun h => (firstBad_not_all h (fun _ hp => .inl hp) h2).elim⟩, fun h => (nomatch h)⟩
  · have hg : goImport E S F ig x = .ok (.notExist, some e) := by simp only [goImport, h1]
    rw [hg]
    refine ⟨⟨fun ⟨_, h⟩ => (nomatch h), fun h => (firstBad_not_all h2 (fun _ hp => .inr hp) h).elim⟩, ⟨fun _ => h2, fun _ => ⟨e, rfl⟩⟩,
      ⟨fun h => (nomatch h), fun h => (firstBad_unique h2 h).elim⟩, fun h => (nomatch h)⟩
  · have hg : goImport E S F ig x = .panic := by simp only [goImport, h1]
    rw [hg]
    refine ⟨⟨fun ⟨_, h⟩ => (nomatch h), fun h => (firstBad_not_all h2 (fun _ hp => .inl hp) h).elim⟩,
      ⟨fun ⟨_, h⟩ => (nomatch h), fun h => (firstBad_unique h h2).elim⟩, ⟨fun _ => h2, fun _ => rfl⟩, fun h => (nomatch h)⟩

/-- So Set, Insert and Append of a Go value panic, before they have changed anything, if the first bad part of the Go value is forbidden. -/
theorem C53_set_panics (E : Env) (S : SortFn) (F : FloatText) (ig : Bool) (v : V) (x : GoVal) (ps : List Param)
    (h : FirstBad E Forbidden (looked E .open x)) :
    setGo E S F ig v x ps = (v, .panic) ∧ (∀ after, insertGo E S F ig after v x ps = (v, .panic)) ∧ ∀ beg, appendGo E S F ig beg v x ps = (v, .panic) :=
  C57_panic E S F ig v x ps ((C53_exact E S F ig x).2.2.1.2 h)

/-- Import returns nil without an error exactly for a nil pointer to a marshaler and a nil `*V`, also inside pointers and interfaces. -/
theorem C53_nil_iff (E : Env) (S : SortFn) (F : FloatText) (ig : Bool) (x : GoVal) :
    goImport E S F ig x = .ok (.nilp, none) ↔ bare x = .nilMarsh ∨ bare x = .jv .nilp := by
  have ho : ({ ignoreOmitempty := ig } : Ext).omit = false := by cases ig <;> rfl
  rw [← nil_val (E := E) (S := S) (F := F) x _ ho]
  unfold goImport
  cases importVal E S F { ignoreOmitempty := ig } .no x <;> simp

-- var t *time.Time; Import(any(&t)) would be one: `iface (ptr nilMarsh)`
example : bare (.iface (.ptr .nilMarsh)) = .nilMarsh := rfl

-- a channel after a byte slice inside an embedded unexported slice type: the byte slice comes first, so a panic and not an error; the other way round
-- an error and no panic
example (E : Env) (S : SortFn) (F : FloatText) (ig : Bool) :
    goImport E S F ig (.struct [.mk (asc "l") [] true false (.slice [.bytes false none]), .mk (asc "C") [] false true .unsupported]) = .panic :=
  (C53_exact E S F ig _).2.2.1.2 ⟨[], (.hidden, .bytes false none), [(.open, .unsupported)], rfl, by simp, by decide, rfl⟩

example (E : Env) (S : SortFn) (F : FloatText) (ig : Bool) :
    ∃ e, goImport E S F ig (.struct [.mk (asc "C") [] false true .unsupported, .mk (asc "l") [] true false (.slice [.bytes false none])]) = .ok (.notExist, some e) :=
  (C53_exact E S F ig _).2.1.2 ⟨[], (.open, .unsupported), [(.hidden, .bytes false none)], rfl, by simp, trivial⟩

-- the exported fields of an embedded unexported struct are accessible; nothing inside of its unexported ones is looked at
example (E : Env) (S : SortFn) (F : FloatText) (ig : Bool) :
    ∃ v, goImport E S F ig (.struct [.mk (asc "e") [] true false (.struct [.mk (asc "B") [] false true (.bytes false none), .mk (asc "c") [] false false .unsupported])]) = .ok (v, none) := by
  refine (C53_exact E S F ig _).1.2 ?_
  have : looked E .open (.struct [.mk (asc "e") [] true false (.struct [.mk (asc "B") [] false true (.bytes false none), .mk (asc "c") [] false false .unsupported])]) =
    [(.open, .bytes false none)] := rfl
  rw [this]
  intro q hq
  simp only [List.mem_singleton] at hq
  subst hq
  exact ⟨fun h => h.1 rfl, id⟩

end JV
