import Verif.Model.Value
/-! Decidable equality of values, so that concrete cases can be evaluated by `decide +kernel`. -/
namespace JV

mutual
def V.eqb : V → V → Bool
  | .nilp, .nilp => true
  | .notExist, .notExist => true
  | .str a, .str b => decide (a = b)
  | .num a n, .num b m => decide (a = b) && decide (n = m)
  | .bool a, .bool b => decide (a = b)
  | .null, .null => true
  | .arr xs, .arr ys => V.eqbL xs ys
  | .obj i es l, .obj j fs m => decide (i = j) && V.eqbE es fs && decide (l = m)
  | _, _ => false
def V.eqbL : List V → List V → Bool
  | [], [] => true
  | x :: xs, y :: ys => V.eqb x y && V.eqbL xs ys
  | _, _ => false
def V.eqbE : List Ent → List Ent → Bool
  | [], [] => true
  | ⟨k, i, v⟩ :: xs, ⟨k', i', v'⟩ :: ys => decide (k = k') && decide (i = i') && V.eqb v v' && V.eqbE xs ys
  | _, _ => false
end

mutual
theorem V.eqb_iff : ∀ a b : V, V.eqb a b = true ↔ a = b
  | .arr xs, .arr ys => by simp [V.eqb, V.eqbL_iff xs ys]
  | .obj i es l, .obj j fs m => by simp [V.eqb, V.eqbE_iff es fs, and_assoc]
  | .nilp, b => by cases b <;> simp [V.eqb]
  | .notExist, b => by cases b <;> simp [V.eqb]
  | .str a, b => by cases b <;> simp [V.eqb]
  | .num a n, b => by cases b <;> simp [V.eqb]
  | .bool a, b => by cases b <;> simp [V.eqb]
  | .null, b => by cases b <;> simp [V.eqb]
  | .arr xs, .nilp => by simp [V.eqb]
  | .arr xs, .notExist => by simp [V.eqb]
  | .arr xs, .str _ => by simp [V.eqb]
  | .arr xs, .num _ _ => by simp [V.eqb]
  | .arr xs, .bool _ => by simp [V.eqb]
  | .arr xs, .null => by simp [V.eqb]
  | .arr xs, .obj _ _ _ => by simp [V.eqb]
  | .obj _ _ _, .nilp => by simp [V.eqb]
  | .obj _ _ _, .notExist => by simp [V.eqb]
  | .obj _ _ _, .str _ => by simp [V.eqb]
  | .obj _ _ _, .num _ _ => by simp [V.eqb]
  | .obj _ _ _, .bool _ => by simp [V.eqb]
  | .obj _ _ _, .null => by simp [V.eqb]
  | .obj _ _ _, .arr _ => by simp [V.eqb]
theorem V.eqbL_iff : ∀ a b : List V, V.eqbL a b = true ↔ a = b
  | [], [] => by simp [V.eqbL]
  | x :: xs, y :: ys => by simp [V.eqbL, V.eqb_iff x y, V.eqbL_iff xs ys]
  | [], _ :: _ => by simp [V.eqbL]
  | _ :: _, [] => by simp [V.eqbL]
theorem V.eqbE_iff : ∀ a b : List Ent, V.eqbE a b = true ↔ a = b
  | [], [] => by simp [V.eqbE]
  | ⟨k, i, v⟩ :: xs, ⟨k', i', v'⟩ :: ys => by simp [V.eqbE, V.eqb_iff v v', V.eqbE_iff xs ys, and_assoc]
  | [], _ :: _ => by simp [V.eqbE]
  | _ :: _, [] => by simp [V.eqbE]
end

instance : DecidableEq V := fun a b => decidable_of_iff _ (V.eqb_iff a b)

end JV
