import Verif.Proofs.ImportGraph
import Verif.Props.Import
/-!
C92: whether Import returns.
-/
namespace JV
open Spec

/-- C92 as stated: with stack enough, Import returns. False: see the counterexamples below. -/
def C92_statement : Prop := ∀ (E : Env) (S : SortFn) (F : FloatText) (ig : Bool) (h : GHeap) (a : Nat), GoodSort S → ∃ n, goImportG E S F h n ig a ≠ .diverge

/-- When following the data comes to an end, they are a tree to Import, and Import returns (with a value or an error, or by a panic) what
it returns for the tree; so that C40 and C53 are about these data too. The tree has everything in it that is looked at. -/
theorem C92_partial (E : Env) (S : SortFn) (F : FloatText) (ig : Bool) (h : GHeap) (a : Nat) (he : ¬ Endless E h a) :
    ∃ n, Complete E h a n ∧ ∀ m, n ≤ m → goImportG E S F h m ig a = goImport E S F ig (unfoldG E h n .no a) ∧ goImportG E S F h m ig a ≠ .diverge := by
  obtain ⟨n, hn⟩ := seen_of_acc (S := S) (F := F) (acc_iff.2 he)
  refine ⟨n, hn.same, fun m hm => ?_⟩
  have h1 : goImportG E S F h m ig a = goImport E S F ig (unfoldG E h n .no a) := by
    have h1 := hn.runs m hm { ignoreOmitempty := ig }
    rw [hn.same m hm] at h1
    unfold goImportG goImport
    rw [h1]
    rfl
  refine ⟨h1, ?_⟩
  rw [h1]
  have := ends_val (E := E) (S := S) (F := F) { ignoreOmitempty := ig } .no (unfoldG E h n .no a)
  unfold goImport
  split
  · exact fun h => nomatch h
  · exact fun h => nomatch h
  · exact fun h => nomatch h
  · contradiction

/-- Where following has no end, Import gives no value, however much stack there is: it exhausts it, unless an error or a panic comes first. -/
theorem C92_endless (E : Env) (S : SortFn) (F : FloatText) (ig : Bool) (h : GHeap) (a : Nat) (he : Endless E h a) (n : Nat) (v : V) :
    goImportG E S F h n ig a ≠ .ok (v, none) := by
  intro hv
  unfold goImportG at hv
  split at hv
  · rename_i w hw
    exact acc_iff.1 (acc_of_ok hw) he
  · cases hv
  · cases hv
  · cases hv

/-- Exactly: where nothing in the data is refused (numbers, strings, and so on), Import returns a value and no error if following the data comes
to an end, and otherwise never returns. -/
theorem C92_exact (E : Env) (S : SortFn) (F : FloatText) (ig : Bool) (h : GHeap) (a : Nat)
    (hl : ∀ b x, h b = .leaf x → ∀ ex ro, ∃ v, importVal E S F ex ro x = .ok v) :
    ((∃ n v, goImportG E S F h n ig a = .ok (v, none)) ↔ ¬ Endless E h a) ∧ (Endless E h a → ∀ n, goImportG E S F h n ig a = .diverge) := by
  have ho : ∀ n, (∃ v, goImportG E S F h n ig a = .ok (v, none)) ∨ goImportG E S F h n ig a = .diverge := fun n => by
    rcases importG_okOrNot hl n { ignoreOmitempty := ig } .no a with ⟨v, hv⟩ | hv <;> simp [goImportG, hv]
  refine ⟨⟨fun ⟨n, v, hv⟩ he => C92_endless E S F ig h a he n v hv, fun he => ?_⟩, fun he n => ?_⟩
  · obtain ⟨n, -, hn⟩ := C92_partial E S F ig h a he
    exact ⟨n, (ho n).resolve_right (hn n (Nat.le_refl n)).2⟩
  · exact (ho n).resolve_left fun ⟨v, hv⟩ => C92_endless E S F ig h a he n v hv

/-- A program has finitely many values: there, no end means that something that is looked at leads back to itself. -/
theorem C92_cycle (E : Env) (h : GHeap) (a N : Nat) (hN : ∀ s n, Trail E h (.no, a) s n → s.2 < N) :
    Endless E h a ↔ ∃ s m k, Trail E h (.no, a) s m ∧ Trail E h s s (k + 1) := endless_iff_loop hN

/-! ### data that contain themselves -/

/-- `type T *T; var p T; p = &p` -/
def selfPtr : GHeap := fun _ => .ptr 0
/-- `s := []any{nil}; s[0] = s` -/
def selfSlice : GHeap := fun a => match a with
  | 0 => .slice [1]
  | _ => .iface 0
/-- `m := map[string]any{"n": 1}; m["m"] = m` -/
def selfMap : GHeap := fun a => match a with
  | 0 => .map [(.str (asc "n"), 1), (.str (asc "m"), 2)]
  | 1 => .leaf (.iface (.int 1))
  | _ => .iface 0
/-- `type Node struct { Name string; Next *Node }`, a ring of two: `a.Next = b; b.Next = a` -/
def ring (tag : Bytes) : GHeap := fun a => match a with
  | 0 => .ptr 1
  | 1 => .struct [⟨asc "Name", [], false, true, 4⟩, ⟨asc "Next", tag, false, true, 2⟩]
  | 2 => .ptr 3
  | 3 => .struct [⟨asc "Name", [], false, true, 4⟩, ⟨asc "Next", tag, false, true, 0⟩]
  | _ => .leaf (.str (asc "x"))

theorem endless_selfPtr (E : Env) : Endless E selfPtr 0 := ⟨fun _ => (.no, 0), rfl, fun _ => .ptr rfl⟩

theorem endless_selfSlice (E : Env) : Endless E selfSlice 0 :=
  endless_of_loop .here (.step (.step .here (.slice (b := 1) rfl (by simp))) (.iface rfl))

theorem endless_selfMap (E : Env) : Endless E selfMap 0 :=
  endless_of_loop .here (.step (.step .here (.map (b := 2) (k := .str (asc "m")) rfl (by simp))) (.iface rfl))

theorem endless_ring (E : Env) (ht : E.trimSpace [] = []) : Endless E (ring []) 0 := by
  have hl : ∀ b, Looked E .no ⟨asc "Next", [], false, true, b⟩ := fun b => by
    refine ⟨?_, .inr rfl⟩
    simp only [jsonName, true_or, if_true]
    decide
  have h1 : Follows E (ring []) (.no, 1) (.no, 2) := .field (f := ⟨asc "Next", [], false, true, 2⟩) rfl (by simp) (hl 2)
  have h3 : Follows E (ring []) (.no, 3) (.no, 0) := .field (f := ⟨asc "Next", [], false, true, 0⟩) rfl (by simp) (hl 0)
  exact endless_of_loop .here (.step (.step (.step (.step .here (.ptr (b := 1) rfl)) h1) (.ptr (b := 3) rfl)) h3)

/-- None of these imports returns: the goroutine's stack grows until the program is stopped. -/
theorem C92_never (S : SortFn) (F : FloatText) (ig : Bool) (n : Nat) :
    goImportG sampleEnv S F selfPtr n ig 0 = .diverge ∧ goImportG sampleEnv S F selfSlice n ig 0 = .diverge ∧
    goImportG sampleEnv S F selfMap n ig 0 = .diverge ∧ goImportG sampleEnv S F (ring []) n ig 0 = .diverge := by
  refine ⟨(C92_exact _ S F ig _ 0 ?_).2 (endless_selfPtr _) n, (C92_exact _ S F ig _ 0 ?_).2 (endless_selfSlice _) n,
    (C92_exact _ S F ig _ 0 ?_).2 (endless_selfMap _) n, (C92_exact _ S F ig _ 0 ?_).2 (endless_ring _ rfl) n⟩
  · intro b x hb; cases hb
  · intro b x hb; unfold selfSlice at hb; split at hb <;> cases hb
  · intro b x hb
    unfold selfMap at hb
    split at hb
    · cases hb
    · cases hb; exact fun ex ro => ⟨_, by rw [importVal, importVal]⟩
    · cases hb
  · intro b x hb
    unfold ring at hb
    split at hb
    · cases hb
    · cases hb
    · cases hb
    · cases hb
    · cases hb; exact fun ex ro => ⟨_, by rw [importVal]⟩

theorem C92_counterexample : ¬ C92_statement := by
  intro hc
  obtain ⟨n, hn⟩ := hc sampleEnv insertionSort (fun _ _ => []) false selfPtr 0 insertionSort_good
  exact hn (C92_never _ _ _ n).1

/-- With `json:"-"` on the field that closes the ring, there is no harm: the pointer is not followed. -/
theorem C92_left_out (S : SortFn) (F : FloatText) (ig : Bool) : ¬ Endless sampleEnv (ring (asc "-")) 0 ∧
    ∀ m, 3 ≤ m → goImportG sampleEnv S F (ring (asc "-")) m ig 0 = .ok (.obj 1 [⟨asc "Name", 1, .str (asc "x")⟩] none, none) := by
  have h1 : ∀ k, goImportG sampleEnv S F (ring (asc "-")) (k + 3) ig 0 = .ok (.obj 1 [⟨asc "Name", 1, .str (asc "x")⟩] none, none) := fun k => by
    cases ig <;> rfl
  refine ⟨fun he => C92_endless _ S F ig _ 0 he 3 _ (h1 0), fun m hm => ?_⟩
  rw [show m = m - 3 + 3 by omega]
  exact h1 _

end JV
