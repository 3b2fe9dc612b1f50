import Verif.Model.Export
import Verif.Spec.Marshal
import Verif.Spec.Compare
import Verif.Spec.StdGrammar
/-!
What encoding/json is taken to do with a JSON text, and what Export should give.
-/
namespace Spec
open JV

/-! ### nesting -/

mutual
/-- how many arrays and objects lie around the innermost value, itself included -/
def J.depth : J → Nat
  | .arr xs => depthL xs + 1
  | .obj ms => depthM ms + 1
  | _ => 0
def depthL : List J → Nat
  | [] => 0
  | x :: xs => max x.depth (depthL xs)
def depthM : List Mem → Nat
  | [] => 0
  | ⟨_, v⟩ :: ms => max v.depth (depthM ms)
end

/-- the limit of encoding/json: scanner.go `maxNestingDepth` -/
def maxNesting : Nat := 10000

/-- arrays and objects of the value lie at most `n` deep -/
def Nests (n : Nat) (v : V) : Prop := ∀ l c, v.at l = some c → ¬ IsScalar c → l.length < n

/-! ### decoding -/

/-- The Go data for a document: numbers by `pf` (strconv.ParseFloat), the last one of several members with the same key. -/
inductive AnyOf (pf : Bytes → Option (BitVec 64)) : J → AnyVal → Prop
  | null : AnyOf pf .null .nil
  | bool (b) : AnyOf pf (.bool b) (.bool b)
  | num (t f) : pf t = some f → AnyOf pf (.num t) (.flt f)
  | str (s) : AnyOf pf (.str s) (.str s)
  | arr (js : List J) (gs : List AnyVal) : js.length = gs.length → (∀ (i : Nat) j g, js[i]? = some j → gs[i]? = some g → AnyOf pf j g) →
      AnyOf pf (.arr js) (.slice gs)
  | obj (ms : List Mem) (kvs : List (Bytes × AnyVal)) : (kvs.map Prod.fst).Nodup → (∀ k, (lastOf k ms).isSome = (anyFind k kvs).isSome) →
      (∀ k j g, lastOf k ms = some j → anyFind k kvs = some g → AnyOf pf j g) → AnyOf pf (.obj ms) (.map kvs)

/-- What is assumed about `json.Unmarshal` with an `interface{}`: JSON texts that do not nest too deep are read with their meaning if all numbers
are in the range of float64, and nothing is read but what the scanner lets pass (Spec/StdGrammar) and has these properties. -/
structure GoodDec (pf : Bytes → Option (BitVec 64)) (dec : AnyDec) : Prop where
  reads : ∀ s j, JText s j → j.depth ≤ maxNesting → j.AllNums (fun t => pf t ≠ none) → ∃ g, dec s = some g ∧ AnyOf pf j g
  only : ∀ s g, dec s = some g → ∃ j, GText s j ∧ j.depth ≤ maxNesting ∧ j.AllNums (fun t => pf t ≠ none)

/-- the Go data for a value -/
inductive Exported (pf : Bytes → Option (BitVec 64)) : V → AnyVal → Prop
  | null : Exported pf .null .nil
  | bool (b) : Exported pf (.bool b) (.bool b)
  | num (src n f) : pf src = some f → Exported pf (.num src n) (.flt f)
  | str (s) : Exported pf (.str s) (.str s)
  | arr (xs : List V) (gs : List AnyVal) : xs.length = gs.length → (∀ (i : Nat) x g, xs[i]? = some x → gs[i]? = some g → Exported pf x g) →
      Exported pf (.arr xs) (.slice gs)
  | obj (n kvs low) (gs : List (Bytes × AnyVal)) : (gs.map Prod.fst).Nodup →
      (∀ k, (members (.obj n kvs low) k).isSome = (anyFind k gs).isSome) →
      (∀ k c g, members (.obj n kvs low) k = some c → anyFind k gs = some g → Exported pf c g) → Exported pf (.obj n kvs low) (.map gs)

/-- A node that Export can hand over: strings and keys are valid UTF-8 without U+000B, numbers are JSON numbers in the range of float64, nothing is
nil or NotExist. -/
def Exportable (pf : Bytes → Option (BitVec 64)) : V → Prop
  | .nilp => False
  | .notExist => False
  | .str s => ValidUTF8 s ∧ 0xB ∉ s
  | .num src _ => JNum src ∧ pf src ≠ none
  | .obj _ kvs _ => ∀ e ∈ kvs, ValidUTF8 e.key ∧ 0xB ∉ e.key
  | _ => True

end Spec
