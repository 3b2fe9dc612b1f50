import Verif.Proofs.Get
import Verif.Proofs.Base64
import Verif.Model.GoApi
/-!
Lemmas for Props/GoApi.
-/
namespace JV
open Spec

/-- an addressed node is found in the same way with Caseless: an exact key comes first -/
theorem addr_resolve_cl {E : Env} {cl : Bool} {v : V} {ps : List Param} {l : List Step} (h : Addr v ps l) : resolve E cl v ps = (v, .ok l) := by
  have lk : ∀ {n kvs low k c}, (V.obj n kvs low).child (.key k) = some c → locate E cl (.obj n kvs low) (.str k) = (.obj n kvs low, .ok (.key k)) := by
    intro n kvs low k c h
    simp only [child_key, Option.map_eq_some_iff] at h
    obtain ⟨e, he, rfl⟩ := h
    simp [locate, anyToString, findKey, he]
  have li : ∀ {xs p z i}, intOf p = some z → index (List.length xs) z = some i → locate E cl (.arr xs) p = (.arr xs, .ok (.idx i)) := by
    intro xs p z i hz hi
    have := index_lt hi
    simp [locate, anyToInt_some.2 hz, posForRead_eq, hi, this, show ¬ ((i : Int) < 0) by omega]
  induction h with
  | slice v q qs l _ ih =>
    rw [resolve_one]
    unfold resolve1
    exact (if_neg (by simp)).trans ih
  | key n kvs low k c h => simp [resolve, resolve1, lk h]
  | idx xs p z i h1 h2 =>
    have := li h1 h2
    cases p <;> simp [intOf] at h1 <;> simp [resolve, resolve1, this]
  | keyCons n kvs low k c q qs l h1 _ ih =>
    unfold resolve
    simp [Param.isSlice, lk h1, h1, ih, put_child h1]
  | idxCons xs p z i c q qs l h1 h2 h3 _ ih =>
    unfold resolve
    have := li h1 h2
    have hp : p.isSlice = false := by cases p <;> simp [intOf, Param.isSlice] at h1 ⊢
    simp [hp, this, h3, ih, put_child h3]

/-- what Get finds, Caseless().Get finds too -/
theorem getC_of_get {E : Env} {cl : Bool} {v c : V} {ps : List Param} (h : get E v ps = .ok c) : (getC E cl v ps).2 = .ok c := by
  obtain ⟨l, h1, h2⟩ := (get_iff E v ps c).1 h
  simp [getC, addr_resolve_cl h1, fetch, h2]

theorem childOf_err {E : Env} {S : SortFn} {F : FloatText} {ig : Bool} {x : GoVal} {w : V} {e : Err} (h : goImport E S F ig x = .ok (w, some e)) :
    childOf E S F ig x = .ok { c := w, err := some e } := by
  cases x <;> first
    | (simp only [childOf, h, R.bind_ok, R.pure_eq]; done)
    | (exfalso; simp [goImport, importVal, Ext.omit] at h)


theorem mchild_init {E : Env} {F : FloatText} {m : MVal} {c : V} (h : m.child E F = some c) : c.uninit = false := by
  cases m <;> simp [MVal.child] at h <;> subst h <;> rfl

end JV
