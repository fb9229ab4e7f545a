import Verif.Props.Arith
/-
C47: `t * u` with two items.
-/
namespace ITree
variable {ms : ModelSet} {h : Heap}

/-- a new item built from a selection (with repetitions) of parentless trees made of new items -/
theorem newFrom_select {h1 : Heap} (C1 : Core h1) (U : Unchanged h h1) (sel : List Tree) (tg : Tag) (v : Val) (f : Flags)
    (hs : ∀ T ∈ sel, Rep h1 T ∧ T.shape.copy = T.shape ∧ ∀ i ∈ T.ids, h.next ≤ i ∧ i < h1.next) :
    ∃ (h' : Heap) (T : Tree), newFrom h1 tg v ((sel.map Tree.id).map Arg.item) f = (h', .ok T.id) ∧ Rep h' T ∧
      T.shape = .node tg v f none (sel.map fun S => S.shape.or (f &&& Flags.deepMask)) ∧ h'.par T.id = none ∧ (∀ i ∈ T.ids, h.next ≤ i) ∧ Unchanged h h' := by
  have hself : ∀ T : Tree, T.id ∈ T.ids := by intro T; cases T; simp [Tree.id, Tree.ids_node]
  obtain ⟨h', Ts, e, C', R, p, l, m, nx, F⟩ := newFrom_spec C1 tg v ((sel.map Tree.id).map Arg.item) f (by
    intro i hi
    simp only [List.mem_map, Arg.item.injEq] at hi
    obtain ⟨j, ⟨T, hT, rfl⟩, rfl⟩ := hi
    exact ((hs T hT).2.2 T.id (hself T)).2)
  simp only [List.length_map] at l
  have hm : ∀ (k : Nat) (hk : k < Ts.length), ∃ hc : k < sel.length, (∀ i ∈ (Ts[k]).ids, h.next ≤ i) ∧ (Ts[k]).shape = (sel[k]).shape.or (f &&& Flags.deepMask) := by
    intro k hk
    have hc : k < sel.length := by omega
    refine ⟨hc, ?_⟩
    have hC := hs sel[k] (List.getElem_mem hc)
    have M := m k (.item sel[k].id) Ts[k] (by simp [hc]) (by simp [hk])
    simp only [MadeAt] at M
    rw [hC.1.tree C1.wf] at M
    split at M
    · exact ⟨fun i hi => (hC.2.2 i (M.1 ▸ hi)).1, M.2⟩
    · exact ⟨fun i hi => Nat.le_trans U.next (M.1 i hi), by rw [M.2, hC.2.1]⟩
  refine ⟨h', .node h1.next tg v f none Ts, e, R, ?_, p, ?_, ?_⟩
  · simp only [Tree.shape, shapeL_eq, Shape.node.injEq, true_and]
    apply List.ext_getElem
    · simp [l]
    · intro k hk _
      simp only [List.length_map] at hk
      obtain ⟨hc, _, q⟩ := hm k hk
      simp [q]
  · intro i hi
    rw [Tree.ids_node, idsL_eq] at hi
    rcases List.mem_cons.1 hi with rfl | hi
    · exact U.next
    · obtain ⟨T, hT, hiT⟩ := List.mem_flatMap.1 hi
      obtain ⟨k, hk, rfl⟩ := List.getElem_of_mem hT
      obtain ⟨hc, q, _⟩ := hm k hk
      exact q i hiT
  · refine arith_unchanged U F fun j hj => ?_
    simp only [List.mem_map, Arg.item.injEq] at hj
    obtain ⟨_, ⟨T, hT, rfl⟩, rfl⟩ := hj
    exact ⟨T, rfl, (hs T hT).1, fun i hi => ((hs T hT).2.2 i hi).1⟩

/-- C47. `t * u` for two items (`t` no link root): a new parentless item with tag, value and flags of `t`; for every child `a` of `t` (in order) and every child `b` of `u` (in order) it has a copy of `a`
followed by a copy of `b`; all items are new and nothing that existed before changes. -/
theorem C47_product (H : Reach ms h) {t u : Id} (hl : ¬ h.isLinkRoot t) :
    ∃ (h' : Heap) (T : Tree), mulTree h t u = (h', .ok T.id) ∧ Rep h' T ∧
      T.shape = .node (h.tag t) (h.node t).value (h.flags t) none
        (((h.kids t).flatMap fun a => (h.kids u).flatMap fun b => [a, b]).map (copiedShape h (h.flags t &&& Flags.deepMask))) ∧
      h'.par T.id = none ∧ (∀ i ∈ T.ids, h.next ≤ i) ∧ Unchanged h h' := by
  have C := H.core
  obtain ⟨A, a1, a2, a3, a4, _, a6⟩ := copyAll_spec (h.kids t) C (fun x hx => C.wf.kids_lt t x hx)
  simp only [mulTree, if_neg hl]
  generalize (copyAll h (h.kids t)).1 = g at *
  have hku : ∀ x ∈ h.kids u, x < h.next := fun x hx => C.wf.kids_lt u x hx
  obtain ⟨B, b1, b2, b3, b4, _, b6⟩ := copyAll_spec (h.kids u) a2 (fun x hx => Nat.lt_of_lt_of_le (hku x hx) a3.next)
  generalize (copyAll g (h.kids u)).1 = h1 at *
  have hkeep : ∀ {T : Tree} {a b : Heap}, Rep a T → (∀ i ∈ T.ids, i < a.next) → Unchanged a b → Rep b T := by
    intro T a b R hi U
    exact R.congr fun i h => ⟨U.tag i (hi i h), U.value i (hi i h), U.flags i (hi i h), U.link i (hi i h), U.kids i (hi i h) id⟩
  have hgt : ∀ x ∈ h.kids u, g.tree x = h.tree x := by
    intro x hx
    obtain ⟨R, e⟩ := rep_of_tree C.wf C.forest x
    have hR := hkeep R (fun i hi => by
      cases (below_iff_ids R i).2 hi with
      | refl => rw [e]; exact hku x hx
      | step _ hm => exact C.wf.kids_lt _ _ hm) a3
    have := hR.tree a2.wf; rwa [e] at this
  have U : Unchanged h h1 := Frame.trans a3 b3
  have hsel : ((A.map Tree.id).flatMap fun a => (B.map Tree.id).flatMap fun b => [a, b]) = (A.flatMap fun a => B.flatMap fun b => [a, b]).map Tree.id := by
    simp only [List.map_flatMap, List.flatMap_map, List.map_cons, List.map_nil]
  rw [a1, b1, hsel]
  have hca : ∀ T ∈ A, Rep h1 T ∧ T.shape.copy = T.shape ∧ ∀ i ∈ T.ids, h.next ≤ i ∧ i < h1.next := by
    intro T hT
    obtain ⟨q1, q2, q3⟩ := a6 T hT
    refine ⟨hkeep q1 (fun i hi => (q3 i hi).2) b3, ?_, fun i hi => ⟨(q3 i hi).1, Nat.lt_of_lt_of_le (q3 i hi).2 b3.next⟩⟩
    have : T.shape ∈ A.map Tree.shape := List.mem_map_of_mem hT
    rw [a4] at this
    obtain ⟨x, _, hx⟩ := List.mem_map.1 this
    rw [← hx, Shape.copy_copy]
  have hcb : ∀ T ∈ B, Rep h1 T ∧ T.shape.copy = T.shape ∧ ∀ i ∈ T.ids, h.next ≤ i ∧ i < h1.next := by
    intro T hT
    obtain ⟨q1, q2, q3⟩ := b6 T hT
    refine ⟨q1, ?_, fun i hi => ⟨Nat.le_trans a3.next (q3 i hi).1, (q3 i hi).2⟩⟩
    have : T.shape ∈ B.map Tree.shape := List.mem_map_of_mem hT
    rw [b4] at this
    obtain ⟨x, _, hx⟩ := List.mem_map.1 this
    rw [← hx, Shape.copy_copy]
  obtain ⟨h', T, e1, e2, e3, e4, e5, e6⟩ := newFrom_select b2 U (A.flatMap fun a => B.flatMap fun b => [a, b]) (h.tag t) (h.node t).value (h.flags t) (by
    intro T hT
    obtain ⟨a, ha, hT⟩ := List.mem_flatMap.1 hT
    obtain ⟨b, hb, hT⟩ := List.mem_flatMap.1 hT
    simp only [List.mem_cons, List.not_mem_nil, or_false] at hT
    rcases hT with rfl | rfl
    · exact hca _ ha
    · exact hcb _ hb)
  refine ⟨h', T, e1, e2, ?_, e4, e5, e6⟩
  rw [e3]
  have hb4 : B.map Tree.shape = (h.kids u).map fun x => (h.tree x).shape.copy := by
    rw [b4]; exact List.map_congr_left fun x hx => by rw [hgt x hx]
  have hA : ∀ (g1 : Shape → Shape → List Shape), (A.flatMap fun a => B.flatMap fun b => g1 a.shape b.shape) =
      (h.kids t).flatMap fun a => (h.kids u).flatMap fun b => g1 (h.tree a).shape.copy (h.tree b).shape.copy := by
    intro g1
    have e1 : (A.flatMap fun a => B.flatMap fun b => g1 a.shape b.shape) = (A.map Tree.shape).flatMap fun a => (B.map Tree.shape).flatMap fun b => g1 a b := by
      simp only [List.flatMap_map]
    rw [e1, a4, hb4]
    simp only [List.flatMap_map]
  simp only [List.map_flatMap, List.map_cons, List.map_nil]
  rw [hA fun a b => [a.or (h.flags t &&& Flags.deepMask), b.or (h.flags t &&& Flags.deepMask)]]
  rfl

/-- C47. `t * u` for a link root `t` is refused and changes nothing. -/
theorem C47_product_linked {t u : Id} (hl : h.isLinkRoot t) : mulTree h t u = (h, .error .type) := by simp [mulTree, hl]

/-- four children times one child: eight children, the child of 1 after each of the others -/
example : ¬ demo.isLinkRoot 0 ∧ demo.kids 0 = [1, 2, 3, 5] ∧ demo.kids 1 = [4] ∧
    ((mulTree demo 0 1).1.tree (match (mulTree demo 0 1).2 with | .ok i => i | _ => 0)).kids.map Tree.tag =
      [demo.tag 1, demo.tag 4, demo.tag 2, demo.tag 4, demo.tag 3, demo.tag 4, demo.tag 5, demo.tag 4] := by decide +kernel

end ITree
