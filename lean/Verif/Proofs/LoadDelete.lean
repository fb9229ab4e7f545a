import Verif.Model.LoadDelete
import Verif.Proofs.LoadAll
import Verif.Props.Removing
import Verif.Spec.Order
/-
The walk of `load_links(delete_invalid_items=True)`.
-/
namespace ITree

theorem quiet_del_rep (env : LinkEnv) (force : Bool) (n : Nat) (g : Heap) : ∀ (ks : List Tree) (c i : Nat), RepL g ks → (∀ x ∈ Tree.idsL ks, g.isLinkRoot x = false) → (g.kids c).drop i = ks.map Tree.id →
    ∃ m, ∀ k st b, loadBelowDel env force n (m + k) g ((c, i) :: st) b = loadBelowDel env force n k g st b
  | [], c, i, _, _, hd => by
    refine ⟨1, fun k st b => ?_⟩
    have : (g.kids c)[i]? = none := by
      rw [List.map_nil, List.drop_eq_nil_iff] at hd
      exact List.getElem?_eq_none hd
    rw [Nat.add_comm, loadBelowDel, this]
  | .node x t v f l kk :: ks, c, i, R, hn, hd => by
    obtain ⟨R1, R2⟩ := R
    simp only [Rep] at R1
    obtain ⟨-, -, -, -, hkx, RL⟩ := R1
    have hx : (g.kids c)[i]? = some x := by
      rw [List.map_cons] at hd
      have := List.getElem?_drop (xs := g.kids c) (i := i) (j := 0)
      rw [hd] at this
      simpa [Tree.id] using this.symm
    have hlr : g.isLinkRoot x = false := hn x (by rw [Tree.idsL_cons, Tree.ids_node]; simp)
    obtain ⟨m1, e1⟩ := quiet_del_rep env force n g kk x 0 RL (fun y hy => hn y (by rw [Tree.idsL_cons, Tree.ids_node]; simp [hy])) (by simpa using hkx)
    obtain ⟨m2, e2⟩ := quiet_del_rep env force n g ks c (i + 1) R2 (fun y hy => hn y (by rw [Tree.idsL_cons]; simp [hy])) (by
      have : (g.kids c).drop (i + 1) = ((g.kids c).drop i).drop 1 := by rw [List.drop_drop]
      rw [this, hd]; rfl)
    by_cases hk : g.kids x = []
    · refine ⟨m2 + 1, fun k st b => ?_⟩
      rw [show m2 + 1 + k = (m2 + k) + 1 by omega, loadBelowDel, hx]
      simp only [hlr, hk, if_true, Bool.false_eq_true, if_false, Bool.or_false]
      exact e2 k st b
    · refine ⟨m1 + m2 + 1, fun k st b => ?_⟩
      rw [show m1 + m2 + 1 + k = (m1 + (m2 + k)) + 1 by omega, loadBelowDel, hx]
      simp only [hlr, hk, Bool.false_eq_true, if_false, Bool.or_false]
      rw [e1, e2]

theorem mem_idsL_iff {g : Heap} {ks : List Tree} (R : RepL g ks) (z : Id) : z ∈ Tree.idsL ks ↔ ∃ y ∈ ks.map Tree.id, Below g y z := by
  induction ks with
  | nil => simp [Tree.idsL_nil]
  | cons T ks ih =>
    obtain ⟨R1, R2⟩ := R
    rw [Tree.idsL_cons, List.mem_append, ih R2, ← below_iff_ids R1]
    simp

theorem quiet_del (env : LinkEnv) (force : Bool) (n : Nat) {g : Heap} (W : WF g) (F : Forest g) (c i : Nat) (hq : ∀ y ∈ (g.kids c).drop i, ∀ z, Below g y z → g.isLinkRoot z = false) :
    ∃ m, ∀ k st b, loadBelowDel env force n (m + k) g ((c, i) :: st) b = loadBelowDel env force n k g st b := by
  have R : RepL g (((g.kids c).drop i).map g.tree) := (repL_iff _).2 fun S hS => by
    obtain ⟨y, -, rfl⟩ := List.mem_map.1 hS
    exact tree_rep W F y
  have hm : (((g.kids c).drop i).map g.tree).map Tree.id = (g.kids c).drop i := by
    rw [List.map_map]
    conv_rhs => rw [← List.map_id ((g.kids c).drop i)]
    exact List.map_congr_left fun y _ => tree_id g y
  refine quiet_del_rep env force n g _ c i R (fun z hz => ?_) hm.symm
  rw [mem_idsL_iff R, hm] at hz
  obtain ⟨y, hy, hb⟩ := hz
  exact hq y hy z hb

/-- more turns of the loop do not change a result -/
theorem loadBelowDel_mono (env : LinkEnv) (force : Bool) (n : Nat) : ∀ (k : Nat) (h : Heap) (st : List (Id × Nat)) (b : Bool) (r : Res Bool), loadBelowDel env force n k h st b = some r →
    ∀ j, loadBelowDel env force n (k + j) h st b = some r
  | 0, _, _, _, _, e, _ => by simp [loadBelowDel] at e
  | k + 1, h, [], b, r, e, j => by
    rw [show k + 1 + j = (k + j) + 1 by omega]
    simpa [loadBelowDel] using e
  | k + 1, h, (c, i) :: st, b, r, e, j => by
    rw [show k + 1 + j = (k + j) + 1 by omega]
    rw [loadBelowDel] at e ⊢
    cases hx : (h.kids c)[i]? with
    | none => rw [hx] at e; exact loadBelowDel_mono env force n k _ _ _ _ e j
    | some x =>
      simp only [hx] at e ⊢
      split at e
      · exact e
      · exact loadBelowDel_mono env force n k _ _ _ _ e j

theorem delivers_of (env : LinkEnv) (force : Bool) (n k : Nat) (h : Heap) (p : Id) {r : Res Bool} (e : callLoadLinksDel env force n k h p = some r) : Delivers (fun k => callLoadLinksDel env force n k h p) r := by
  refine ⟨k, fun j hj => ?_⟩
  obtain ⟨d, rfl⟩ : ∃ d, j = k + d := ⟨j - k, by omega⟩
  cases n with
  | zero => exact e
  | succ m =>
    simp only [callLoadLinksDel] at e ⊢
    split
    · rw [if_pos (by assumption)] at e; exact e
    · rw [if_neg (by assumption)] at e; exact loadBelowDel_mono env force m k _ _ _ _ e d

/-- what the removal of `x` leaves -/
structure Removed (g g' : Heap) (x : Id) : Prop where
  wf : WF g'
  forest : Forest g'
  drop : ∀ c m y, y ∈ (g'.kids c).drop m → y ∈ (g.kids c).drop m
  gone : ∀ c, x ∉ g'.kids c
  flags : ∀ i, g'.flags i = g.flags i

theorem Removed.below {g g' : Heap} {x : Id} (R : Removed g g' x) {y z : Id} (h : Below g' y z) : Below g y z := by
  induction h with
  | refl => exact .refl
  | step _ hc ih => exact ih.step (by have := R.drop _ 0 _ (by simpa using hc); simpa using this)

theorem Removed.ne {g g' : Heap} {x : Id} (R : Removed g g' x) {c y z : Id} (hy : y ∈ g'.kids c) (h : Below g' y z) : z ≠ x := by
  intro e
  cases h with
  | refl => exact R.gone c (e ▸ hy)
  | step _ hc => exact R.gone _ (e ▸ hc)

/-- a link root without children or with quiet ones at the front of a frame is removed; the walk goes on behind the next item -/
theorem delete_walk (env : LinkEnv) (force : Bool) (n : Nat) {g g' : Heap} {x : Id} (hr : g.isLinkRoot x = true) (hx : loadLinksDel env force n g x = (g', .ok false)) (M : Removed g g' x) (hxk : g'.kids x = g.kids x)
    (hxx : ¬ ∃ c ∈ g.kids x, Below g c x) : ∀ (ks : List Tree) (c i : Nat), RepL g ks → x ∈ Tree.idsL ks → (∀ a ∈ Tree.idsL ks, a ≠ x → g.isLinkRoot a = false) → (g.kids c).drop i = ks.map Tree.id →
    ∃ m, ∀ k st b, loadBelowDel env force n (m + k) g ((c, i) :: st) b = loadBelowDel env force n k g' st b
  | [], c, i, _, hA, _, _ => by simp [Tree.idsL_nil] at hA
  | .node y t v f l kk :: ks, c, i, R, hA, hq, hd => by
    have RR := R
    obtain ⟨R1, R2⟩ := R
    have hall := mem_idsL_iff RR
    simp only [Rep] at R1
    obtain ⟨-, -, -, -, hky, RL⟩ := R1
    have hy : (g.kids c)[i]? = some y := by
      rw [List.map_cons] at hd
      have := List.getElem?_drop (xs := g.kids c) (i := i) (j := 0)
      rw [hd] at this
      simpa [Tree.id] using this.symm
    have hd' : (g.kids c).drop (i + 1) = ks.map Tree.id := by
      have : (g.kids c).drop (i + 1) = ((g.kids c).drop i).drop 1 := by rw [List.drop_drop]
      rw [this, hd]; rfl
    have hlr : ∀ z, z ∈ Tree.idsL (.node y t v f l kk :: ks) → z ≠ x → g'.isLinkRoot z = false := fun z hz hne => by
      simp only [Heap.isLinkRoot, M.flags]; exact hq z hz hne
    have rest : ∃ m, ∀ k st b, loadBelowDel env force n (m + k) g' ((c, i + 1) :: st) b = loadBelowDel env force n k g' st b := by
      refine quiet_del env force n M.wf M.forest c (i + 1) fun w hw z hz => hlr z ?_ (M.ne (List.mem_of_mem_drop hw) hz)
      have := M.drop c (i + 1) w hw
      rw [hd'] at this
      exact (hall z).2 ⟨w, by rw [List.map_cons]; exact List.mem_cons_of_mem _ this, M.below hz⟩
    obtain ⟨m2, e2⟩ := rest
    by_cases hyx : y = x
    · subst hyx
      have kid : ∃ m, ∀ k st b, loadBelowDel env force n (m + k) g' ((y, 0) :: st) b = loadBelowDel env force n k g' st b := by
        refine quiet_del env force n M.wf M.forest y 0 fun w hw z hz => ?_
        rw [List.drop_zero] at hw
        have hwk : w ∈ g.kids y := hxk ▸ hw
        refine hlr z ((hall z).2 ⟨y, by simp [Tree.id], (Below.step .refl hwk).trans (M.below hz)⟩) fun e => hxx ⟨w, hwk, e ▸ M.below hz⟩
      obtain ⟨m1, e1⟩ := kid
      by_cases hk : g'.kids y = []
      · refine ⟨m2 + 1, fun k st b => ?_⟩
        rw [show m2 + 1 + k = (m2 + k) + 1 by omega, loadBelowDel, hy]
        simp only [hr, if_true, hx, hk, Bool.or_false]
        exact e2 k st b
      · refine ⟨m1 + m2 + 1, fun k st b => ?_⟩
        rw [show m1 + m2 + 1 + k = (m1 + (m2 + k)) + 1 by omega, loadBelowDel, hy]
        simp only [hr, if_true, hx, hk, if_false, Bool.or_false]
        rw [e1, e2]
    · have hly := hq y (by rw [Tree.idsL_cons, Tree.ids_node]; simp) hyx
      rw [Tree.idsL_cons, Tree.ids_node] at hA
      by_cases hin : x ∈ Tree.idsL kk
      · obtain ⟨m1, e1⟩ := delete_walk env force n hr hx M hxk hxx kk y 0 RL hin (fun a ha => hq a (by rw [Tree.idsL_cons, Tree.ids_node]; simp [ha])) (by simpa using hky)
        have hk : g.kids y ≠ [] := fun h0 => by
          rw [h0] at hky
          have : kk = [] := List.map_eq_nil_iff.1 hky.symm
          rw [this, Tree.idsL_nil] at hin
          simp at hin
        refine ⟨m1 + m2 + 1, fun k st b => ?_⟩
        rw [show m1 + m2 + 1 + k = (m1 + (m2 + k)) + 1 by omega, loadBelowDel, hy]
        simp only [hly, hk, Bool.false_eq_true, if_false, Bool.or_false]
        rw [e1, e2]
      · have hin2 : x ∈ Tree.idsL ks := by
          rcases List.mem_append.1 hA with h | h
          · rcases List.mem_cons.1 h with h | h
            · exact absurd h.symm hyx
            · exact absurd h hin
          · exact h
        obtain ⟨m3, e3⟩ := delete_walk env force n hr hx M hxk hxx ks c (i + 1) R2 hin2 (fun a ha => hq a (by rw [Tree.idsL_cons]; simp [ha])) hd'
        obtain ⟨m1, e1⟩ := quiet_del_rep env force n g kk y 0 RL (fun a ha => hq a (by rw [Tree.idsL_cons, Tree.ids_node]; simp [ha]) fun e => hin (e ▸ ha)) (by simpa using hky)
        by_cases hk : g.kids y = []
        · refine ⟨m3 + 1, fun k st b => ?_⟩
          rw [show m3 + 1 + k = (m3 + k) + 1 by omega, loadBelowDel, hy]
          simp only [hly, hk, if_true, Bool.false_eq_true, if_false, Bool.or_false]
          exact e3 k st b
        · refine ⟨m1 + m3 + 1, fun k st b => ?_⟩
          rw [show m1 + m3 + 1 + k = (m1 + (m3 + k)) + 1 by omega, loadBelowDel, hy]
          simp only [hly, hk, Bool.false_eq_true, if_false, Bool.or_false]
          rw [e1, e3]

end ITree
