import Verif.Model.CopyLoop
import Verif.Proofs.Build
import Verif.Proofs.Gen
/-
The copy loop computes the recursive copy.
-/
namespace ITree

theorem copyNode_snap {h : Heap} {T : Tree} (R : Rep h T) : copyNode (h.snap 0 T.id) = copyNode T := by
  obtain ⟨i, t, v, f, l, ks⟩ := T
  obtain ⟨rfl, rfl, rfl, rfl, _⟩ := R
  rfl

theorem RepL.grow {h h' : Heap} {p : Id} (G : GrowSpec h h' p) {ts : List Tree} (R : ∀ T ∈ ts, Rep h T)
    (hb : ∀ i ∈ Tree.idsL ts, i < h.next ∧ i ≠ p) : ∀ T ∈ ts, Rep h' T := fun T hT => (R T hT).congr fun i hi => by
  obtain ⟨a, b⟩ := hb i (Tree.mem_idsL.2 ⟨T, hT, hi⟩)
  exact ⟨G.frame.tag i a, G.frame.value i a, G.frame.flags i a, G.frame.link i a, G.frame.kids i a b⟩

/-- the loop over the children `ts` of some item, adding to `p` -/
def LoopSpec (ts : List Tree) : Prop := ∀ (h : Heap) (p : Id) (items : List Id) (st : List CFr), WF h → p < h.next → (∀ T ∈ ts, Rep h T) →
  (∀ i ∈ Tree.idsL ts, i < p) →
  Goes copyLoopStep ⟨h, p :: items, .it (ts.map Tree.id) :: st⟩ [] ⟨buildKids h p ts, p :: items, .it [] :: st⟩

theorem loop_spec (ts : List Tree) : LoopSpec ts := by
  refine Tree.rec_1 (motive_1 := fun T => LoopSpec T.kids) (motive_2 := LoopSpec) ?_ ?_ ?_ ts
  · intro i t v f l ks ih; exact ih
  · intro h p items st W hp R hb
    exact Goes.refl _
  · intro T rest ihT ihR h p items st W hp R hb
    have RT := R T (by simp)
    have eC := copyNode_snap RT
    have eK := RT.kids
    obtain ⟨i, t, v, f, l, ks⟩ := T
    simp only [Tree.kids, Tree.id] at eK eC ihT
    obtain ⟨G1, k1, n1, _, _, _, _, kk1⟩ := alloc_append_spec W hp (copyNode (.node i t v f l ks)) rfl rfl rfl (copyNode_cover _)
    have hs : copyLoopStep ⟨h, p :: items, .it ((Tree.node i t v f l ks :: rest).map Tree.id) :: st⟩ =
        if ks.map Tree.id = [] then .more [] ⟨appendItem (h.alloc (copyNode (.node i t v f l ks))).1 p h.next, p :: items, .it (rest.map Tree.id) :: st⟩
        else .more [] ⟨appendItem (h.alloc (copyNode (.node i t v f l ks))).1 p h.next, h.next :: p :: items,
          .it (ks.map Tree.id) :: .none :: .it (rest.map Tree.id) :: st⟩ := by
      simp only [copyLoopStep, List.map_cons, Tree.id, cloneOne, eC, eK]; rfl
    have hbk : ∀ j ∈ Tree.idsL ks, j < p := fun j hj => hb j (by rw [Tree.idsL_cons, Tree.ids_node]; simp [hj])
    have hbr : ∀ j ∈ Tree.idsL rest, j < p := fun j hj => hb j (by rw [Tree.idsL_cons]; simp [hj])
    simp only [buildKids, buildOne]
    have e0 : (h.alloc (copyNode (.node i t v f l ks))).2 = h.next := rfl
    rw [e0]
    have Rk : ∀ T ∈ ks, Rep h T := fun T hT => RT.kid hT
    have Rr : ∀ T ∈ rest, Rep h T := fun T hT => R T (by simp [hT])
    have Rk1 := RepL.grow G1 Rk fun j hj => by have := hbk j hj; omega
    have Rr1 := RepL.grow G1 Rr fun j hj => by have := hbr j hj; omega
    generalize hg1 : appendItem (h.alloc (copyNode (.node i t v f l ks))).1 p h.next = h1 at *
    obtain ⟨G2, _⟩ := buildKids_spec ks h1 h.next G1.wf (by omega)
    have hle := G2.frame.next
    have Rr2 := RepL.grow G2 Rr1 fun j hj => by have := hbr j hj; omega
    have run1 : Goes copyLoopStep ⟨h, p :: items, .it ((Tree.node i t v f l ks :: rest).map Tree.id) :: st⟩ []
        ⟨buildKids h1 h.next ks, p :: items, .it (rest.map Tree.id) :: st⟩ := by
      cases ks with
      | nil => exact Goes.one (by rw [hs]; rfl)
      | cons k ks =>
        refine Goes.cons (o := []) (by rw [hs]; rfl) ?_
        refine (ihT h1 h.next (p :: items) _ G1.wf (by omega) Rk1 (fun j hj => by have := hbk j hj; omega)).trans (o' := []) ?_
        refine Goes.cons (o := []) rfl (Goes.cons (o := []) rfl (Goes.refl _))
    exact run1.trans (o' := []) (ihR _ p items st G2.wf (by omega) Rr2 hbr)

theorem iterCopy_delivers {h : Heap} (W : WF h) (F : Forest h) {x : Id} (hx : x < h.next) :
    Delivers (fun n => iterCopy n h x) (.ok (copyItem h x)) := by
  have RT := tree_rep W F x
  have ei := tree_id h x
  have eC := copyNode_snap RT
  have eK := RT.kids
  have hid := RT.ids_lt W (by rw [ei]; exact hx)
  unfold iterCopy copyItem build
  rw [ei] at eC eK
  simp only [cloneOne, eC, eK]
  have e0 : (h.alloc (copyNode (h.tree x))).2 = h.next := rfl
  have hnx : (h.alloc (copyNode (h.tree x))).1.next = h.next + 1 := rfl
  rw [e0]
  by_cases hk : (h.tree x).kids = []
  · simp only [hk, List.map_nil, if_true, buildKids]
    exact Delivers.const _
  · have hne : (h.tree x).kids.map Tree.id ≠ [] := by simpa using hk
    simp only [if_neg hne]
    have A := copyNode_alloc h (h.tree x)
    have U := A.frame
    have Rk : ∀ T ∈ (h.tree x).kids, Rep (h.alloc (copyNode (h.tree x))).1 T := fun T hT => (RT.kid hT).congr fun i hi => by
      have a : i < h.next := hid i (by
        revert hT; cases h.tree x; intro hT; rw [Tree.ids_node]; exact List.mem_cons_of_mem _ (Tree.mem_idsL.2 ⟨T, hT, hi⟩))
      exact ⟨U.tag i a, U.value i a, U.flags i a, U.link i a, U.kids i a id⟩
    have L := loop_spec (h.tree x).kids (h.alloc (copyNode (h.tree x))).1 h.next [] [] (A.wf W) (by omega) Rk (fun j hj => hid j (by
        revert hj; cases h.tree x; rw [Tree.ids_node]; exact List.mem_cons_of_mem _))
    have L2 := L.trans (o' := []) (Goes.one (o := []) (t := ⟨_, _, []⟩) rfl)
    exact (L2.finish rfl).map _

end ITree
