import Verif.Spec.Sharing
import Verif.Proofs.Forest
import Verif.Proofs.HeapEdges
/-!
The size of a tree against that of the values it is made of.
-/
namespace JV
open Spec

theorem calls_program {E : Env} {ops : List HOp} {h : Heap} {held : List Ptr} (hc : Calls E ops h held) : Program E h held := by
  induction hc with
  | start => exact .start
  | call ops h held op _ ha ih => exact .call h held op ih ha

def ownAt (h : Heap) (a : Nat) : Nat := match h[a]? with | some c => ownWeight c | none => 0

theorem weightM_eq : ∀ es : List Ent, weightM es = (es.map fun e => e.key.length + 3).sum + weightL (es.map Ent.v)
  | [] => rfl
  | ⟨k, i, v⟩ :: es => by
    have ih := weightM_eq es
    simp only [weightM, List.map_cons, List.sum_cons, weightL, ih, Ent.v_mk, Ent.key]
    omega

theorem keys_sum {kvs : List HEnt} {es : List Ent} (hk : kvs.map (fun e => (e.key, e.id)) = es.map (fun e => (e.key, e.id))) (c : Nat) :
    (es.map fun e => e.key.length + c).sum = (kvs.map fun e => e.key.length + c).sum := by
  have := congrArg (fun l => (l.map fun (p : Bytes × BitVec 32) => p.1.length + c).sum) hk
  simpa [List.map_map, Function.comp_def] using this.symm

theorem sum_shift {α : Type} (f : α → Nat) (l : List α) : (l.map fun e => f e + 4).sum = (l.map fun e => f e + 3).sum + l.length := by
  induction l with
  | nil => rfl
  | cons e l ih => simp only [List.map_cons, List.sum_cons, List.length_cons, ih]; omega

mutual
theorem hangs_weight {h : Heap} : ∀ {p v F}, Hangs h p v F → weight v ≤ (F.map (ownAt h)).sum + (if p = none then 1 else 0)
  | _, _, _, .nil => by simp [weight]
  | _, _, _, .node a c v F ha hs hk => by
    have hl := hangsL_weight hk
    have ho : ownAt h a = ownWeight c := by simp [ownAt, ha]
    simp only [List.map_cons, List.sum_cons, ho]
    cases c <;> cases v <;> (try exact hs.elim) <;> simp only [weight, ownWeight, kids, treeKids] at * <;> (try omega)
    · rw [hs]; omega
    · rw [hs.1]; omega
    · rename_i n kvs low m es low'
      rw [weightM_eq, keys_sum hs.2.2]
      have := sum_shift (fun e : HEnt => e.key.length) kvs
      rw [this]
      simp only [List.length_map] at hl
      omega
theorem hangsL_weight {h : Heap} : ∀ {ps vs F}, HangsL h ps vs F → weightL vs ≤ (F.map (ownAt h)).sum + ps.length
  | _, _, _, .nil => by simp [weightL]
  | _, _, _, .cons p v F ps vs G h1 h2 => by
    have a1 := hangs_weight h1
    have a2 := hangsL_weight h2
    simp only [weightL, List.map_append, List.sum_append, List.length_cons]
    split at a1 <;> omega
end

theorem sum_within {f : Nat → Nat} : ∀ {F S : List Nat}, F.Nodup → (∀ a ∈ F, a ∈ S) → (F.map f).sum ≤ (S.map f).sum
  | [], _, _, _ => by simp
  | a :: F, S, hn, hs => by
    have hp : S.Perm (a :: S.erase a) := List.perm_cons_erase (hs a (by simp))
    rw [(hp.map f).sum_nat]
    have hn' := List.nodup_cons.1 hn
    have := sum_within (f := f) (S := S.erase a) hn'.2 fun b hb => (List.mem_erase_of_ne (by rintro rfl; exact hn'.1 hb)).2 (hs b (by simp [hb]))
    simp only [List.map_cons, List.sum_cons]
    omega

theorem memory_eq (h : Heap) : memory h = ((List.range h.length).map (ownAt h)).sum := by
  unfold memory
  congr 1
  apply List.ext_getElem
  · simp
  · intro i h1 h2
    simp at h1
    simp [ownAt, h1]

theorem hangs_mem {h : Heap} {p : Ptr} {v : V} {F : List Nat} (hF : Hangs h p v F) : ∀ a ∈ F, a ∈ List.range h.length := by
  intro a ha
  obtain ⟨c, hc, -⟩ := (hangs_closed hF).1 a ha
  exact List.mem_range.2 (List.getElem?_eq_some_iff.1 hc).1

theorem weightL_le {M : Nat} : ∀ {vs : List V}, (∀ v ∈ vs, weight v ≤ M) → weightL vs ≤ vs.length * M
  | [], _ => by simp [weightL]
  | v :: vs, hv => by
    have h1 := hv v (by simp)
    have h2 := weightL_le (vs := vs) fun w hw => hv w (by simp [hw])
    simp only [weightL, List.length_cons, Nat.succ_mul]
    omega

theorem hangsL_mem {h : Heap} : ∀ {ps vs F}, HangsL h ps vs F → ∀ v ∈ vs, ∃ p G, Hangs h p v G ∧ ∀ a ∈ G, a ∈ F
  | _, _, _, .nil, v, hv => by cases hv
  | _, _, _, .cons p w F ps vs G h1 h2, v, hv => by
    rcases List.mem_cons.1 hv with rfl | hv
    · exact ⟨p, F, h1, fun a ha => by simp [ha]⟩
    · obtain ⟨q, G', h3, h4⟩ := hangsL_mem h2 v hv
      exact ⟨q, G', h3, fun a ha => by simp [h4 a ha]⟩

theorem not_below {h : Heap} {a : Nat} {c : Cell} {v : V} {F : List Nat} (ha : h[a]? = some c) (hF : Hangs h (some a) v (a :: F)) (hk : HangsL h (kids c) (treeKids v) F) : a ∉ F := by
  intro hm
  obtain ⟨b, h1, h2⟩ := hangsL_reach hk a hm
  exact shows_acyclic hF ⟨a, .refl a, b, c, ha, h1, h2⟩

/-- at the worst every pointer doubles what is written -/
theorem weight_worst {h : Heap} : ∀ (n : Nat) {S : List Nat} {p v F}, S.length ≤ n → Hangs h p v F → (∀ a ∈ F, a ∈ S) → weight v ≤ 2 ^ (S.map (ownAt h)).sum
  | n, S, _, _, _, _, .nil, _ => by simp only [weight]; exact Nat.one_le_two_pow
  | n, S, _, _, _, hl, .node a c v F ha hs hk, hS => by
    have hmem : a ∈ S := hS a (by simp)
    have hlen := List.length_erase_of_mem hmem
    have hpos := List.length_pos_of_mem hmem
    cases n with
    | zero => omega
    | succ n =>
      have hnot := not_below ha (.node a c v F ha hs hk) hk
      have hkid : ∀ w ∈ treeKids v, weight w ≤ 2 ^ ((S.erase a).map (ownAt h)).sum := fun w hw => by
        obtain ⟨p, G, h1, h2⟩ := hangsL_mem hk w hw
        exact weight_worst n (by omega) h1 fun b hb => (List.mem_erase_of_ne (by rintro rfl; exact hnot (h2 _ hb))).2 (hS b (by simp [h2 b hb]))
      have hp : S.Perm (a :: S.erase a) := List.perm_cons_erase hmem
      have hsum : (S.map (ownAt h)).sum = ownWeight c + ((S.erase a).map (ownAt h)).sum := by
        rw [(hp.map _).sum_nat]; simp [ownAt, ha]
      rw [hsum, Nat.pow_add]
      have hL := weightL_le hkid
      generalize hM : 2 ^ ((S.erase a).map (ownAt h)).sum = M at *
      have hM1 : 1 ≤ M := by rw [← hM]; exact Nat.one_le_two_pow
      have key : weight v ≤ ownWeight c * M := by
        have hkl := showsL_length hk
        have leaf : ∀ x, x ≤ x * M := fun x => Nat.le_mul_of_pos_right x hM1
        cases c <;> cases v <;> (try exact hs.elim) <;> simp only [weight, ownWeight, kids, treeKids] at *
        · exact leaf _
        · rw [hs]; exact leaf _
        · rw [hs.1]; exact leaf _
        · exact leaf _
        · exact leaf _
        · rename_i xs ys
          rw [hkl, Nat.add_mul]
          omega
        · rename_i n kvs low m es low'
          rw [weightM_eq, keys_sum hs.2.2, sum_shift (fun e : HEnt => e.key.length) kvs, Nat.add_mul, Nat.add_mul]
          simp only [List.length_map] at hL hkl
          rw [hkl]
          have := leaf (kvs.map fun e => e.key.length + 3).sum
          omega
      exact Nat.le_trans key (Nat.mul_le_mul_right M (Nat.le_of_lt Nat.lt_two_pow_self))

/-! ## doubling -/

/-- an empty array, and n arrays with the one before twice in each -/
def doublingHeap (n : Nat) : Heap := .arr [] :: (List.range n).map fun i => .arr [some i, some i]
def doubled : Nat → V
  | 0 => .arr []
  | n + 1 => .arr [doubled n, doubled n]

theorem doublingHeap_length (n : Nat) : (doublingHeap n).length = n + 1 := by simp [doublingHeap]
theorem doublingHeap_succ (n : Nat) : doublingHeap (n + 1) = doublingHeap n ++ [.arr [some n, some n]] := by
  simp [doublingHeap, List.range_succ]
theorem doublingHeap_get {n i : Nat} (hi : i < n) : (doublingHeap n)[i + 1]? = some (.arr [some i, some i]) := by
  simp [doublingHeap, hi]

theorem doubling_memory (n : Nat) : memory (doublingHeap n) = 4 * n + 2 := by
  induction n with
  | zero => rfl
  | succ n ih =>
    rw [doublingHeap_succ]
    simp only [memory, List.map_append, List.sum_append] at *
    rw [ih]
    simp [ownWeight]; omega

theorem doubling_hangs {n : Nat} : ∀ i, i ≤ n → ∃ F, Hangs (doublingHeap n) (some i) (doubled i) F
  | 0, _ => ⟨[0], .node 0 _ _ [] rfl trivial .nil⟩
  | i + 1, hi => by
    obtain ⟨F, hF⟩ := doubling_hangs (n := n) i (by omega)
    exact ⟨_, .node (i + 1) _ (doubled (i + 1)) _ (doublingHeap_get (by omega)) trivial (.cons _ _ _ _ _ _ hF (.cons _ _ _ _ _ _ hF .nil))⟩

theorem doubled_weight (n : Nat) : weight (doubled n) = 2 ^ (n + 2) - 2 := by
  induction n with
  | zero => rfl
  | succ n ih =>
    simp only [doubled, weight, weightL, ih]
    have : 2 ^ (n + 1 + 2) = 2 * 2 ^ (n + 2) := by rw [Nat.pow_succ]; omega
    have := Nat.one_le_two_pow (n := n)
    have : 2 ^ (n + 2) = 4 * 2 ^ n := by rw [Nat.pow_add]; omega
    omega

theorem run_new (E : Env) (h : Heap) : (HOp.new (.arr [])).run E h = (h ++ [.arr []], .ok (some h.length)) := rfl

theorem run_append (E : Env) (h : Heap) (xs : List Ptr) (c : Ptr) : (HOp.append false (some h.length) c []).run E (h ++ [.arr xs]) = (h ++ [.arr (xs ++ [c])], .ok c) := by
  simp [HOp.run, happendAt, happendTo]

theorem doubling_calls (E : Env) : ∀ n, ∃ ops held, Calls E ops (doublingHeap n) held ∧ ops.length = 3 * n + 1 ∧ some n ∈ held
  | 0 => ⟨_, _, .call _ _ _ (.new (.arr [])) .start (by simp [HOp.args]), rfl, by simp [run_new]⟩
  | n + 1 => by
    obtain ⟨ops, held, h1, h2, h3⟩ := doubling_calls E n
    have a1 := Calls.call _ _ _ (.new (.arr [])) h1 (by simp [HOp.args])
    rw [run_new] at a1
    have a2 := Calls.call _ _ _ (.append false (some (doublingHeap n).length) (some n) []) a1 (by simp [HOp.args, h3])
    rw [run_append] at a2
    have a3 := Calls.call _ _ _ (.append false (some (doublingHeap n).length) (some n) []) a2 (by simp [HOp.args, h3])
    rw [run_append] at a3
    refine ⟨_, _, by rw [doublingHeap_succ]; exact a3, by simp [h2]; omega, by simp [doublingHeap_length]⟩

end JV
