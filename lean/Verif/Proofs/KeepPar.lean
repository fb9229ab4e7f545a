import Verif.Proofs.History
/-
Extending leaves every parent reference alone: items that have a parent keep it.
-/
namespace ITree

theorem extendLoop_keepPar {p : Id} : ∀ (as : List Arg) (g : Heap) (idx : Nat), WF g → p < g.next → (g.node p).stale = none →
    (∀ i, Arg.item i ∈ as → i < g.next) → ∀ j, j < g.next → g.par j ≠ none → (extendLoop g p idx as).par j = g.par j := by
  intro as
  induction as with
  | nil => intro g idx _ _ _ _ j _ _; rfl
  | cons a as ih =>
    intro g idx Wg hpg hs hv j hj hjp
    simp only [extendLoop]
    have P := extPick_spec Wg a (fun i e => hv i (by simp [e]))
    have A := extendOne_attach Wg hpg hs idx a (fun i e => hv i (by simp [e]))
    have hle : (g.kids p).length ≤ ((extPick g a).1.kids p).length := by
      rw [P.unchanged.kids p hpg (fun h => h)]
    have hn1 := P.unchanged.next
    have hne : j ≠ (extPick g a).2 := by
      rcases P.what with ⟨q, e1, e2, e3, _⟩ | ⟨q, _, _, C⟩ | ⟨v, _, A'⟩
      · rw [e3]; rintro rfl; exact hjp e2
      · have := C.root; omega
      · have := A'.id; omega
    have hpar : (extendOne g p idx a).par j = g.par j := by
      rw [A.par', if_neg hne]
      exact P.unchanged.par j hj (fun h => h)
    have W2 := A.wf P.wf (by omega) P.lt hle P.par
    have hnx2 : g.next ≤ (extendOne g p idx a).next := by rw [A.next]; exact hn1
    rw [ih (extendOne g p idx a) (idx + 1) W2 (by omega) A.stale_p (fun k hk => by
      have := hv k (by simp [hk])
      omega) j (by omega) (by rw [hpar]; exact hjp)]
    exact hpar

theorem iterExtend_keepPar {h : Heap} (W : WF h) {p : Id} (hp : p < h.next) (as : List Arg) (ha : ∀ i, Arg.item i ∈ as → i < h.next) {j : Id}
    (hj : j < h.next) (hjp : h.par j ≠ none) : (iterExtend h p as).par j = h.par j := by
  unfold iterExtend
  dsimp only
  split
  · next hk =>
    have O := resetFams_obs (h := h) p (some []) none
    rw [extendLoop_keepPar as _ _ (resetFams_wf W p hk none) (by rw [O.next]; exact hp) (by simp) (fun i hi => by rw [O.next]; exact ha i hi) j
      (by rw [O.next]; exact hj) (by rw [O.par]; exact hjp), O.par]
  · next hk => exact extendLoop_keepPar as h _ W hp (W.stale_none p hk) ha j hj hjp

end ITree
