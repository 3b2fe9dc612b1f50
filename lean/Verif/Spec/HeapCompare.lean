import Verif.Model.HeapCompare
import Verif.Spec.Heap
import Verif.Spec.Compare
/-!
What two objects in memory look like, followed as far as one likes.
-/
namespace Spec
open JV

/-- two objects agree in what they are themselves, and their children are related: elements by position, members by name; numbers agree if their texts have the same value -/
def CellsAgree (val : Bytes → Rat) (Rel : Nat → Nat → Prop) : Cell → Cell → Prop
  | .str s, .str t => s = t
  | .num s _, .num t _ => val s = val t
  | .bool x, .bool y => x = y
  | .null, .null => True
  | .arr xs, .arr ys => xs.length = ys.length ∧ ∀ (i : Nat) x y, xs[i]? = some x → ys[i]? = some y → ∃ a b, x = some a ∧ y = some b ∧ Rel a b
  | .obj _ kvs _, .obj _ kvs' _ => kvs.length = kvs'.length ∧
    ∀ e ∈ kvs, ∃ e' a b, kvs'.find? (fun x => x.key = e.key) = some e' ∧ e.v = some a ∧ e'.v = some b ∧ Rel a b
  | _, _ => False

/-- However far one looks, no difference is found (and neither nil nor NotExist): the two are related by a relation that every step keeps. -/
def LookAlike (val : Bytes → Rat) (h : Heap) (a b : Nat) : Prop := ∃ Rel : Nat → Nat → Prop, Rel a b ∧
  ∀ x y, Rel x y → ∃ c c', h[x]? = some c ∧ h[y]? = some c' ∧ CellsAgree val Rel c c'

/-- nothing that can be reached contains itself -/
def NoCycleBelow (h : Heap) (p : Ptr) : Prop := ∀ a, p = some a → ¬ ∃ b, Reaches h a b ∧ BelowItself h b

/-- what can be reached is a value (neither nil nor NotExist), and no object has a name twice (a Go map cannot) -/
def WholeBelow (h : Heap) (a : Nat) : Prop := ∀ b c, Reaches h a b → h[b]? = some c →
  c ≠ .notExist ∧ (∀ k ∈ kids c, k ≠ none) ∧ ∀ n kvs low, c = .obj n kvs low → (kvs.map HEnt.key).Nodup

end Spec
