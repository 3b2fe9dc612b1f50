import Verif.Spec.StdJson
/-!
Go data that holds values of this package, in slices, arrays, maps and structs, and how a JSON document shows such data. After the published source of
encoding/json. This file does not refer to the functions of the model.
-/
namespace Spec
open JV

mutual
/-- Go data: a `*V` (`nilp`: the nil pointer), a `V` itself, a slice (`true`) or an array (`false`), a map (`true`) or a struct (`false`) -/
inductive Hold
  | ptr (v : V)
  | own (v : V)
  | list (slice : Bool) (xs : HoldList)
  | named (map : Bool) (ms : HoldList)
/-- the elements or members, in the order in which they are written; `key` is the key of the map or the name of the field and `lit` the string literal
that is written for it (elements have neither) -/
inductive HoldList
  | nil
  | cons (key lit : Bytes) (x : Hold) (xs : HoldList)
end

/-- how a value is held: as a `*V`, as a `V` in addressable data, as a `V` in data that is not addressable -/
inductive Site
  | ptr | own | loose
  deriving DecidableEq

/-- `V` at a place that is addressable or not -/
def siteOf (addr : Bool) : Site := if addr then .own else .loose

/-- Package reflect, `Value.CanAddr`: an element of a slice is addressable, an element of an array or a field of a struct if the array or struct is. -/
def elemAddr (slice addr : Bool) : Bool := slice || addr
/-- … an element of a map is not. -/
def fieldAddr (map addr : Bool) : Bool := !map && addr

mutual
/-- every value that is held satisfies `P`; `addr`: the data is addressable (a pointer to it was given to json.Marshal) -/
def Each (P : Site → V → Prop) : Bool → Hold → Prop
  | _, .ptr v => P .ptr v
  | a, .own v => P (siteOf a) v
  | a, .list k xs => EachL P (elemAddr k a) xs
  | a, .named k ms => EachL P (fieldAddr k a) ms
def EachL (P : Site → V → Prop) : Bool → HoldList → Prop
  | _, .nil => True
  | a, .cons _ _ x xs => Each P a x ∧ EachL P a xs
end

mutual
/-- document `j` shows the data: arrays for slices and arrays, objects for maps and structs, and documents related by `P` to the values held -/
def Stands (P : Site → V → J → Prop) : Bool → Hold → J → Prop
  | _, .ptr v, j => P .ptr v j
  | a, .own v, j => P (siteOf a) v j
  | a, .list k xs, j => ∃ js, j = .arr js ∧ StandsL P (elemAddr k a) xs js
  | a, .named k ms, j => ∃ js, j = .obj js ∧ StandsM P (fieldAddr k a) ms js
def StandsL (P : Site → V → J → Prop) : Bool → HoldList → List J → Prop
  | _, .nil, js => js = []
  | a, .cons _ _ x xs, js => ∃ j rest, js = j :: rest ∧ Stands P a x j ∧ StandsL P a xs rest
def StandsM (P : Site → V → J → Prop) : Bool → HoldList → List Mem → Prop
  | _, .nil, ms => ms = []
  | a, .cons key _ x xs, ms => ∃ j rest, ms = ⟨key, j⟩ :: rest ∧ Stands P a x j ∧ StandsM P a xs rest
end

mutual
/-- the literals are JSON string literals for the keys -/
def Lits : Hold → Prop
  | .ptr _ => True
  | .own _ => True
  | .list _ xs => LitsL false xs
  | .named _ ms => LitsL true ms
def LitsL (named : Bool) : HoldList → Prop
  | .nil => True
  | .cons key lit x xs => (named = true → JStr lit key) ∧ Lits x ∧ LitsL named xs
end

def HoldList.keys : HoldList → List Bytes
  | .nil => []
  | .cons key _ _ xs => key :: xs.keys

mutual
/-- no two members of a map or struct have the same key -/
def Distinct : Hold → Prop
  | .ptr _ => True
  | .own _ => True
  | .list _ xs => DistinctL xs
  | .named _ ms => ms.keys.Nodup ∧ DistinctL ms
def DistinctL : HoldList → Prop
  | .nil => True
  | .cons _ _ x xs => Distinct x ∧ DistinctL xs
end

mutual
/-- the data and the values held nest at most `n` deep -/
def HNests : Nat → Hold → Prop
  | n, .ptr v => Nests n v
  | n, .own v => Nests n v
  | n, .list _ xs => 0 < n ∧ HNestsL (n - 1) xs
  | n, .named _ ms => 0 < n ∧ HNestsL (n - 1) ms
def HNestsL : Nat → HoldList → Prop
  | _, .nil => True
  | n, .cons _ _ x xs => HNests n x ∧ HNestsL n xs
end

mutual
/-- two pieces of Go data of the same make with values related by `Q` -/
def Matches (Q : Site → V → V → Prop) : Hold → Hold → Prop
  | .ptr v, h => ∃ w, h = .ptr w ∧ Q .ptr v w
  | .own v, h => ∃ w, h = .own w ∧ Q .own v w
  | .list k xs, h => ∃ ys, h = .list k ys ∧ MatchesL Q xs ys
  | .named k xs, h => ∃ ys, h = .named k ys ∧ MatchesL Q xs ys
def MatchesL (Q : Site → V → V → Prop) : HoldList → HoldList → Prop
  | .nil, ys => ys = .nil
  | .cons key lit x xs, ys => ∃ y rest, ys = .cons key lit y rest ∧ Matches Q x y ∧ MatchesL Q xs rest
end

/-! ### the pieces of a JSON text -/

/-- the texts of the elements of an array, white space around them dropped -/
inductive Items : Bytes → List Bytes → Prop
  | one (w1 t w2 : Bytes) (j : J) : Ws w1 → JVal t j → Ws w2 → Items (w1 ++ t ++ w2) [t]
  | cons (w1 t w2 r : Bytes) (j : J) (ts : List Bytes) : Ws w1 → JVal t j → Ws w2 → Items r ts → Items (w1 ++ t ++ w2 ++ 0x2C :: r) (t :: ts)

/-- the keys and texts of the members of an object -/
inductive Fields : Bytes → List (Bytes × Bytes) → Prop
  | one (w1 k w2 w3 t w4 d : Bytes) (j : J) : Ws w1 → JStr k d → Ws w2 → Ws w3 → JVal t j → Ws w4 → Fields (w1 ++ k ++ w2 ++ 0x3A :: (w3 ++ t ++ w4)) [(d, t)]
  | cons (w1 k w2 w3 t w4 d r : Bytes) (j : J) (fs : List (Bytes × Bytes)) : Ws w1 → JStr k d → Ws w2 → Ws w3 → JVal t j → Ws w4 → Fields r fs →
      Fields (w1 ++ k ++ w2 ++ 0x3A :: (w3 ++ t ++ w4 ++ 0x2C :: r)) ((d, t) :: fs)

def ArrayOf (t : Bytes) (ts : List Bytes) : Prop := ∃ u, t = 0x5B :: u ++ [0x5D] ∧ ((Ws u ∧ ts = []) ∨ Items u ts)
def ObjectOf (t : Bytes) (fs : List (Bytes × Bytes)) : Prop := ∃ u, t = 0x7B :: u ++ [0x7D] ∧ ((Ws u ∧ fs = []) ∨ Fields u fs)

end Spec
