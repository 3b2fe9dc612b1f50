import Verif.Spec.Marshal
import Verif.Spec.Json
/-!
A document written out again.
-/
namespace Spec
open JV

mutual
/-- The document as tokens, every member at its place; `esc s` stands between the quotes of the string `s`. -/
def J.doc (esc : Bytes → Bytes) : J → Doc
  | .null => .leaf [0x6E, 0x75, 0x6C, 0x6C]
  | .bool true => .leaf [0x74, 0x72, 0x75, 0x65]
  | .bool false => .leaf [0x66, 0x61, 0x6C, 0x73, 0x65]
  | .num t => .leaf t
  | .str s => .leaf (0x22 :: esc s ++ [0x22])
  | .arr xs => if xs.isEmpty then .leaf [0x5B, 0x5D] else .arr (docL esc xs)
  | .obj ms => if ms.isEmpty then .leaf [0x7B, 0x7D] else .obj (docM esc false ms)
def docL (esc : Bytes → Bytes) : List J → List Doc
  | [] => []
  | x :: xs => x.doc esc :: docL esc xs
/-- `comma`: a comma comes before the first of the members -/
def docM (esc : Bytes → Bytes) (comma : Bool) : List Mem → List DMem
  | [] => []
  | ⟨k, v⟩ :: ms => ⟨comma, esc k, v.doc esc⟩ :: docM esc true ms
end

mutual
/-- of several members with the same key only the last, where it stands; in all objects of the document -/
def J.uniq : J → J
  | .arr xs => .arr (uniqL xs)
  | .obj ms => .obj (uniqM ms)
  | j => j
def uniqL : List J → List J
  | [] => []
  | x :: xs => x.uniq :: uniqL xs
def uniqM : List Mem → List Mem
  | [] => []
  | ⟨k, v⟩ :: ms => if k ∈ ms.map Mem.key then uniqM ms else ⟨k, v.uniq⟩ :: uniqM ms
end

mutual
/-- no object of the document has 2^32 members or more -/
def J.Narrow : J → Prop
  | .arr xs => NarrowL xs
  | .obj ms => ms.length < 2 ^ 32 ∧ NarrowM ms
  | _ => True
def NarrowL : List J → Prop
  | [] => True
  | x :: xs => x.Narrow ∧ NarrowL xs
def NarrowM : List Mem → Prop
  | [] => True
  | ⟨_, v⟩ :: ms => v.Narrow ∧ NarrowM ms
end

mutual
/-- all strings and keys of the document satisfy `P` -/
def J.Texts (P : Bytes → Prop) : J → Prop
  | .str s => P s
  | .arr xs => TextsL P xs
  | .obj ms => TextsM P ms
  | _ => True
def TextsL (P : Bytes → Prop) : List J → Prop
  | [] => True
  | x :: xs => x.Texts P ∧ TextsL P xs
def TextsM (P : Bytes → Prop) : List Mem → Prop
  | [] => True
  | ⟨k, v⟩ :: ms => P k ∧ v.Texts P ∧ TextsM P ms
end

/-- the options keep every member, in the order in which it was set -/
def Keeps (opts : List MOpt) : Prop := lastSet setsOrder opts .any = .bySet ∧ lastSet setsOmitNull opts false = false

/-- what the options put between quotes for a string -/
def EscapedBy (opts : List MOpt) (esc : Bytes → Bytes) : Prop :=
  ∀ s, Escaped (lastSet setsUTF8 opts false) (lastSet setsHTML opts true) (lastSet setsSlash opts true) s (esc s)

end Spec
