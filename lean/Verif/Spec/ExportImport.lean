import Verif.Spec.Export
import Verif.Model.Import
import Verif.Spec.FloatFmt
import Verif.Spec.Ieee
/-!
Data of type `interface{}` (nil, bool, float64, string, []interface{}, map[string]interface{}) going from Export to Import and back.
-/
namespace Spec
open JV

mutual
/-- such data as package reflect shows it -/
def anyGo : AnyVal → GoVal
  | .nil => .invalid
  | .bool b => .bool b
  | .flt f => .flt false f
  | .str s => .str s
  | .slice gs => .slice (anyGoL gs)
  | .map kvs => .map (anyGoM kvs)
termination_by structural g => g
/-- elements, which are interfaces -/
def anyGoL : List AnyVal → List GoVal
  | [] => []
  | g :: gs => .iface (anyGo g) :: anyGoL gs
termination_by structural gs => gs
def anyGoM : List (Bytes × AnyVal) → List GoPair
  | [] => []
  | p :: kvs => anyGoP p :: anyGoM kvs
termination_by structural kvs => kvs
def anyGoP : Bytes × AnyVal → GoPair
  | (k, g) => .mk (.str k) (.iface (anyGo g))
termination_by structural p => p
end

/-- Data that can be there: keys are distinct, floats are finite; and strings and keys are as `P` says. -/
inductive AnyOK (P : Bytes → Prop) : AnyVal → Prop
  | nil : AnyOK P .nil
  | bool (b) : AnyOK P (.bool b)
  | flt (f) : magnitude f < 0x7FF0000000000000 → AnyOK P (.flt f)
  | str (s) : P s → AnyOK P (.str s)
  | slice (gs) : (∀ g ∈ gs, AnyOK P g) → AnyOK P (.slice gs)
  | map (kvs) : (kvs.map Prod.fst).Nodup → (∀ p ∈ kvs, P p.1) → (∀ p ∈ kvs, AnyOK P p.2) → AnyOK P (.map kvs)

/-- slices and maps lie at most `n` deep -/
inductive AnyNests : Nat → AnyVal → Prop
  | nil (n) : AnyNests n .nil
  | bool (n b) : AnyNests n (.bool b)
  | flt (n f) : AnyNests n (.flt f)
  | str (n s) : AnyNests n (.str s)
  | slice (n gs) : (∀ g ∈ gs, AnyNests n g) → AnyNests (n + 1) (.slice gs)
  | map (n kvs) : (∀ p ∈ kvs, AnyNests n p.2) → AnyNests (n + 1) (.map kvs)

/-- the value for such data; a float has the text `F` -/
inductive FromAny (F : BitVec 64 → Bytes) : AnyVal → V → Prop
  | nil : FromAny F .nil .null
  | bool (b) : FromAny F (.bool b) (.bool b)
  | flt (f n) : n.f64 = f → FromAny F (.flt f) (.num (F f) n)
  | str (s) : FromAny F (.str s) (.str s)
  | slice (gs : List AnyVal) (xs : List V) : gs.length = xs.length → (∀ (i : Nat) g x, gs[i]? = some g → xs[i]? = some x → FromAny F g x) →
      FromAny F (.slice gs) (.arr xs)
  | map (gs : List (Bytes × AnyVal)) (n kvs low) : (kvs.map Ent.key).Nodup → (∀ k, (anyFind k gs).isSome = (members (.obj n kvs low) k).isSome) →
      (∀ k g c, anyFind k gs = some g → members (.obj n kvs low) k = some c → FromAny F g c) → FromAny F (.map gs) (.obj n kvs low)

/-- the same data; maps have no order -/
inductive AnySame : AnyVal → AnyVal → Prop
  | nil : AnySame .nil .nil
  | bool (b) : AnySame (.bool b) (.bool b)
  | flt (f) : AnySame (.flt f) (.flt f)
  | str (s) : AnySame (.str s) (.str s)
  | slice (gs gs' : List AnyVal) : gs.length = gs'.length → (∀ (i : Nat) g g', gs[i]? = some g → gs'[i]? = some g' → AnySame g g') → AnySame (.slice gs) (.slice gs')
  | map (gs gs' : List (Bytes × AnyVal)) : (∀ k, (anyFind k gs).isSome = (anyFind k gs').isSome) →
      (∀ k g g', anyFind k gs = some g → anyFind k gs' = some g' → AnySame g g') → AnySame (.map gs) (.map gs')

/-- the text of a number is not absurdly long -/
def ShortNum : V → Prop
  | .num src _ => ShortExp src ∧ src.length < 2 ^ 30
  | _ => True

/-- a number is what is written (`F`) for the float that it is read as (`pf`) -/
def NumKept (pf : Bytes → Option (BitVec 64)) (F : BitVec 64 → Bytes) : V → Prop
  | .num src _ => ∀ f q, pf src = some f → TextValue src q → TextValue (F f) q
  | _ => True

end Spec
