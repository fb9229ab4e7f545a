import Verif.Proofs.Endless
/-! # C76: `load_links()` may never come back

`R(S(c(P)), D(Q))`: the items `P` (in `c`) and `Q` (in `D`) are link roots, both lead to `S`. -/
namespace ITree

/-- C76 (defect). `load_links()` may never come back, although no link leads to an item that contains the link root: in `R(S(c(P)), D(Q))`, where the links of `P` and `Q` lead to `S`, loading the links in `D` makes a copy of `c` with a
copy of `P` below `Q`.  This copy is a link root that is not loaded, and the iterator comes to it next; so a copy of `c` is made below it, and so on: whatever the number of rounds, the loop is not finished. -/
theorem C76_endless_wrong : BuiltUp ms0 endlessHeap ∧ endlessHeap.kids 4 = [5] ∧ endlessHeap.isLinkRoot 4 = false ∧ endlessHeap.isLinkRoot 5 = true ∧ Source endlessHeap 5 1 ∧ ¬ Below endlessHeap 1 5 ∧
    ∀ fe n k, callLoadLinks (linkEnv fe) false (n + 2) k endlessHeap 4 = none := by
  refine ⟨endlessHeap_grown, by decide +kernel, by decide +kernel, by decide +kernel, ⟨_, atLink_start.link, ?_⟩, ?_, fun fe n k => ?_⟩
  · rw [show endlessHeap.root 5 = 0 by decide +kernel, show dropRoot (endlessHeap.tag 0) [.pair (.str "S") (.int 0)] = [.pair (.str "S") (.int 0)] by decide +kernel]
    exact endless_via.to
  · intro b
    have W := endlessHeap_grown.tidy.reach.core.wf
    have F := endlessHeap_grown.tidy.reach.core.forest
    have hm : 5 ∈ (endlessHeap.tree 1).ids := by have := below_iff_ids (tree_rep W F 1) 5; rw [tree_id] at this; exact this.1 b
    revert hm
    decide +kernel
  · simp only [callLoadLinks, show endlessHeap.isLinkRoot 4 = false by decide +kernel, Bool.false_eq_true, if_false]
    exact endless_walk fe n k _ 5 4 0 _ _ atLink_start (by decide +kernel)

/-- the same tree, loaded from the inside: `Q.load_links()` comes back at once and delivers True -/
example (fe : FileEnv) : ∃ g, callLoadLinks (linkEnv fe) false 201 1 endlessHeap 5 = some (g, .ok true) := by
  obtain ⟨g', y, z, e, -⟩ := atLink_start.step fe 200
  refine ⟨g', ?_⟩
  simp only [callLoadLinks, show endlessHeap.isLinkRoot 5 = true by decide +kernel, if_true]
  exact congrArg some e
end ITree
