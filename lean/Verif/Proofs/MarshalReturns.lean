import Verif.Model.Marshal
/-!
On a tree Marshal always ends.
-/
namespace JV

/-- the computation ends -/
def Returns {α : Type} (r : R α) : Prop := r ≠ .diverge

theorem returns_ok {α : Type} {a : α} : Returns (.ok a) := by intro h; cases h
theorem returns_pure {α : Type} {a : α} : Returns (pure a : R α) := by intro h; cases h
theorem returns_panic {α : Type} : Returns (.panic : R α) := by intro h; cases h
theorem returns_err {α : Type} {e : Err} : Returns (.err e : R α) := by intro h; cases h
theorem returns_bind {α β : Type} {r : R α} {f : α → R β} (hr : Returns r) (hf : ∀ a, Returns (f a)) : Returns (r >>= f) := by
  cases r with
  | ok a => exact hf a
  | err e => exact returns_err
  | panic => exact returns_panic
  | diverge => exact absurd rfl hr
theorem returns_if {α : Type} {b : Prop} [Decidable b] {x y : R α} (hx : Returns x) (hy : Returns y) : Returns (if b then x else y) := by
  split
  · exact hx
  · exact hy

theorem escapeString_returns (t : Option Escaper) (s : Bytes) : Returns (escapeString t s) := by
  unfold escapeString
  split
  · exact returns_ok
  · exact returns_if returns_ok returns_panic

theorem writeEscaped_returns (o : Opt) (s : Bytes) (st : MSt) : Returns (writeEscaped o s st) := returns_bind (escapeString_returns _ _) fun _ => returns_pure
theorem writeQuoted_returns (o : Opt) (s : Bytes) (st : MSt) : Returns (writeQuoted o s st) := returns_bind (writeEscaped_returns _ _ _) fun _ => returns_pure

theorem marshalNaN_returns (E : Env) (o : Opt) (st : MSt) : Returns (marshalNaN E o st) :=
  returns_if (returns_if returns_ok returns_ok) (returns_if returns_ok (returns_if (returns_if returns_ok (returns_bind (writeQuoted_returns _ _ _) fun _ => returns_pure)) returns_ok))
theorem marshalInfP_returns (E : Env) (o : Opt) (st : MSt) : Returns (marshalInfP E o st) :=
  returns_if (returns_if returns_ok returns_ok) (returns_if returns_ok (returns_if (returns_if returns_ok (returns_bind (writeQuoted_returns _ _ _) fun _ => returns_pure)) returns_ok))
theorem marshalInfN_returns (E : Env) (o : Opt) (st : MSt) : Returns (marshalInfN E o st) :=
  returns_if (returns_if returns_ok returns_ok) (returns_if returns_ok (returns_if (returns_if returns_ok (returns_bind (writeQuoted_returns _ _ _) fun _ => returns_pure)) returns_ok))

theorem marshalNumber_returns (E : Env) (o : Opt) (src : Bytes) (n : Num) (st : MSt) : Returns (marshalNumber E o src n st) :=
  returns_if returns_ok (returns_if (marshalInfP_returns _ _ _) (returns_if (marshalInfN_returns _ _ _) (marshalNaN_returns _ _ _)))

theorem writeMember_returns (o : Opt) (par : Option ParentInfo) (first : Bool) (e : Ent) (wr : Writer) (st : MSt) (hw : ∀ par st, Returns (wr par st)) : Returns (writeMember o par first e wr st) := by
  unfold writeMember
  split
  · exact returns_panic
  · exact returns_if returns_ok (returns_bind (writeEscaped_returns _ _ _) fun _ => returns_bind (hw _ _) fun _ => returns_pure)

theorem writeMembers_returns (o : Opt) (par : Option ParentInfo) : ∀ (ms : List (Ent × Writer)) (b : Bool) (st : MSt), (∀ m ∈ ms, ∀ par st, Returns (m.2 par st)) → Returns (writeMembers o par b ms st)
  | [], _, _, _ => returns_ok
  | (e, wr) :: ms, b, st, h => by
    unfold writeMembers
    exact returns_bind (writeMember_returns _ _ _ _ _ _ fun par st => h (e, wr) (by simp) par st) fun a => writeMembers_returns o par ms _ _ fun m hm => h m (by simp [hm])

theorem mem_sortBy {α : Type} {S : SortFn} {less : α → α → Bool} {l : List α} {x : α} (h : x ∈ sortBy S less l) : x ∈ l := by
  obtain ⟨i, -, hi⟩ := List.mem_filterMap.1 h
  exact List.mem_of_getElem? hi

theorem mem_sortMembers {α : Type} {S : SortFn} {o : Opt} {par : Option ParentInfo} {kvs : List Ent} {ms : List (Ent × α)} {m : Ent × α} (h : m ∈ sortMembers S o par kvs ms) : m ∈ ms := by
  unfold sortMembers at h
  repeat' split at h
  all_goals first | exact mem_sortBy h | exact h

mutual
theorem marshalTo_returns (E : Env) (S : SortFn) (o : Opt) : ∀ (v : V) (par : Option ParentInfo) (st : MSt), Returns (marshalTo E S o v par st)
  | .nilp, _, _ => returns_panic
  | .notExist, _, _ => returns_ok
  | .str s, _, _ => returns_bind (writeQuoted_returns _ _ _) fun _ => returns_pure
  | .num src n, _, _ => marshalNumber_returns _ _ _ _ _
  | .bool b, _, _ => returns_ok
  | .null, _, _ => returns_ok
  | .arr xs, par, st => returns_if returns_ok (returns_bind (marshalElems_returns E S o xs _ _ _ _) fun _ => returns_pure)
  | .obj _ kvs _, par, st => returns_if returns_ok (returns_bind (writeMembers_returns _ _ _ _ _ fun m hm => memberWriters_returns E S o kvs m (mem_sortMembers hm)) fun _ => returns_pure)
theorem marshalElems_returns (E : Env) (S : SortFn) (o : Opt) : ∀ (xs : List V) (v : V) (i : Nat) (par : Option ParentInfo) (st : MSt), Returns (marshalElems E S o v xs i par st)
  | [], _, _, _, _ => returns_ok
  | x :: xs, v, i, par, st => returns_bind (marshalTo_returns E S o x _ _) fun _ => marshalElems_returns E S o xs _ _ _ _
theorem memberWriters_returns (E : Env) (S : SortFn) (o : Opt) : ∀ (es : List Ent), ∀ m ∈ memberWriters E S o es, ∀ par st, Returns (m.2 par st)
  | [], m, hm, _, _ => by simp [memberWriters] at hm
  | .mk k i v :: es, m, hm, par, st => by
    simp only [memberWriters, List.mem_cons] at hm
    rcases hm with rfl | hm
    · exact marshalTo_returns E S o v par st
    · exact memberWriters_returns E S o es m hm par st
end

theorem marshal_returns (E : Env) (S : SortFn) (d : Opt) (v : V) (opts : List MOpt) : marshal E S d v opts ≠ .diverge := by
  unfold marshal
  split
  · exact returns_panic
  · exact returns_ok
  · exact returns_bind (marshalTo_returns E S _ _ _ _) fun a => by
      obtain ⟨st, e⟩ := a
      cases e
      · exact returns_pure
      · exact returns_pure

end JV
