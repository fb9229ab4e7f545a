import Verif.Proofs.Rep
/-
Copies.
-/
namespace ITree

/-- no local item covers a linked item -/
def NoCover (h : Heap) : Prop := ∀ x, coverOf h x = none

/-- all heap invariants together -/
structure Inv (h : Heap) : Prop where
  wf : WF h
  nz : NoZombie h
  forest : Forest h
  nocov : NoCover h

theorem AttachRel.noCover {h h' : Heap} {p x : Id} {n : Nat} (A : AttachRel h h' p x n) (N : NoCover h) : NoCover h' := fun y => by
  have := N y; simp only [coverOf, A.link] at this ⊢; exact this
theorem DetachRel.noCover {h h' : Heap} {p x : Id} {n : Nat} (A : DetachRel h h' p x n) (N : NoCover h) : NoCover h' := fun y => by
  have := N y; simp only [coverOf, A.link] at this ⊢; exact this
theorem CEq.noCover {h h' : Heap} (A : CEq h h') (N : NoCover h) : NoCover h' := fun y => by
  have := N y; simp only [coverOf, A.link] at this ⊢; exact this
theorem AllocRel.noCover {h h' : Heap} {x : Id} {n : Node} (A : AllocRel h h' x n) (N : NoCover h)
    (hn : (match n.link with | some l => l.cover | none => none) = none) : NoCover h' := fun y => by
  obtain ⟨rfl, rfl, _⟩ := A
  have := N y
  simp only [coverOf, Heap.alloc] at this ⊢
  by_cases e : y = h.next
  · simp only [if_pos e]; exact hn
  · simp only [if_neg e]; exact this

theorem below_leaf {h : Heap} {x y : Id} (hx : h.kids x = []) (b : Below h x y) : y = x := by
  have : x = y ∨ ∃ d, d ∈ h.kids x := by
    induction b with
    | refl => left; rfl
    | step _ hc ih =>
      rcases ih with rfl | ⟨d, hd⟩
      · right; exact ⟨_, hc⟩
      · right; exact ⟨d, hd⟩
  rcases this with e | ⟨d, hd⟩
  · exact e.symm
  · rw [hx] at hd; simp at hd

theorem copyNode_alloc (h : Heap) (t : Tree) : AllocRel h (h.alloc (copyNode t)).1 (h.alloc (copyNode t)).2 (copyNode t) :=
  ⟨rfl, rfl, rfl, rfl, Or.inl rfl⟩

theorem copyNode_cover (t : Tree) : (match (copyNode t).link with | some l => l.cover | none => none) = none := by
  simp only [copyNode, copyLink]
  split
  · next l hl =>
    split at hl
    · simp at hl; obtain ⟨a, _, rfl⟩ := hl; rfl
    · simp at hl
  · rfl

/-- alloc a node and append it: all the invariants -/
structure GrowSpec (h h' : Heap) (p : Id) : Prop where
  wf : WF h'
  frame : Frame h h' (· = p) (fun _ => False)
  nz : NoZombie h → NoZombie h'
  forest : Forest h → Forest h'
  nocov : NoCover h → NoCover h'

theorem Frame.weaken {h h' : Heap} {K P : Id → Prop} {n : Nat} (F : Frame h h' K P) (hn : n ≤ h.next) : ∀ i, i < n → h'.tag i = h.tag i ∧
    (h'.node i).value = (h.node i).value ∧ h'.flags i = h.flags i ∧ (h'.node i).link = (h.node i).link := fun i hi =>
  ⟨F.tag i (by omega), F.value i (by omega), F.flags i (by omega), F.link i (by omega)⟩

theorem GrowSpec.trans {h1 h2 h3 : Heap} {p q : Id} (A : GrowSpec h1 h2 p) (B : GrowSpec h2 h3 q) (hq : q = p ∨ h1.next ≤ q) : GrowSpec h1 h3 p where
  wf := B.wf
  nz Z := B.nz (A.nz Z)
  forest F := B.forest (A.forest F)
  nocov N := B.nocov (A.nocov N)
  frame :=
    { next := Nat.le_trans A.frame.next B.frame.next
      tag := fun i hi => (B.frame.tag i (Nat.lt_of_lt_of_le hi A.frame.next)).trans (A.frame.tag i hi)
      value := fun i hi => (B.frame.value i (Nat.lt_of_lt_of_le hi A.frame.next)).trans (A.frame.value i hi)
      flags := fun i hi => (B.frame.flags i (Nat.lt_of_lt_of_le hi A.frame.next)).trans (A.frame.flags i hi)
      link := fun i hi => (B.frame.link i (Nat.lt_of_lt_of_le hi A.frame.next)).trans (A.frame.link i hi)
      kids := fun i hi e => (B.frame.kids i (Nat.lt_of_lt_of_le hi A.frame.next) (by rcases hq with rfl | hq; exact e; omega)).trans (A.frame.kids i hi e)
      par := fun i hi e => (B.frame.par i (Nat.lt_of_lt_of_le hi A.frame.next) e).trans (A.frame.par i hi e) }

theorem alloc_append_spec {h : Heap} (W : WF h) {p : Id} (hp : p < h.next) (n : Node) (h1 : n.parent = none) (h2 : n.items = []) (h3 : n.fams = none)
    (h4 : (match n.link with | some l => l.cover | none => none) = none) :
    GrowSpec h (appendItem (h.alloc n).1 p h.next) p ∧ (appendItem (h.alloc n).1 p h.next).kids p = h.kids p ++ [h.next] ∧
    (appendItem (h.alloc n).1 p h.next).next = h.next + 1 ∧ (appendItem (h.alloc n).1 p h.next).tag h.next = n.tag ∧
    ((appendItem (h.alloc n).1 p h.next).node h.next).value = n.value ∧ (appendItem (h.alloc n).1 p h.next).flags h.next = n.flags ∧
    ((appendItem (h.alloc n).1 p h.next).node h.next).link = n.link ∧ (appendItem (h.alloc n).1 p h.next).kids h.next = [] := by
  have A : AllocRel h (h.alloc n).1 h.next n := ⟨rfl, rfl, h1, h2, Or.inl h3⟩
  have W1 := A.wf W
  have hnx : (h.alloc n).1.next = h.next + 1 := rfl
  have hpar : ((h.alloc n).1.node h.next).parent = none := by simp [Heap.alloc, h1]
  have B := appendItem_attach W1 (p := p) hpar
  have hkn : (h.alloc n).1.kids h.next = [] := by rw [A.kids W]; exact (W.fresh _ (Nat.le_refl _)).1
  refine ⟨⟨B.wf W1 (by omega) (by omega) (Nat.le_refl _) hpar, ?_, fun Z => B.noZombie (Nat.le_refl _) (A.noZombie W Z), fun F => ?_,
    fun N => B.noCover (A.noCover N h4)⟩, ?_, ?_, ?_, ?_, ?_, ?_, ?_⟩
  · have f1 := A.frame
    have f2 := B.frame
    exact
    { next := Nat.le_trans f1.next f2.next
      tag := fun i hi => (f2.tag i (Nat.lt_of_lt_of_le hi f1.next)).trans (f1.tag i hi)
      value := fun i hi => (f2.value i (Nat.lt_of_lt_of_le hi f1.next)).trans (f1.value i hi)
      flags := fun i hi => (f2.flags i (Nat.lt_of_lt_of_le hi f1.next)).trans (f1.flags i hi)
      link := fun i hi => (f2.link i (Nat.lt_of_lt_of_le hi f1.next)).trans (f1.link i hi)
      kids := fun i hi e => (f2.kids i (Nat.lt_of_lt_of_le hi f1.next) e).trans (f1.kids i hi (fun h => h))
      par := fun i hi e => (f2.par i (Nat.lt_of_lt_of_le hi f1.next) (by omega)).trans (f1.par i hi (fun h => h)) }
  · exact B.forest (Nat.le_refl _) (A.forest W F) fun b => by have := below_leaf hkn b; omega
  · rw [B.kids_p, A.kids W]; simp
  · rw [B.next, hnx]
  · rw [B.tag]; simp [Heap.alloc, Heap.tag]
  · rw [B.value]; simp [Heap.alloc]
  · rw [B.flags]; simp [Heap.alloc, Heap.flags]
  · rw [B.link]; simp [Heap.alloc]
  · rw [B.kids_o _ (by omega)]; exact hkn

/-- specification of the copy loop -/
def BuildKidsSpec (ts : List Tree) : Prop := ∀ (h : Heap) (p : Id), WF h → p < h.next →
  GrowSpec h (buildKids h p ts) p ∧ ∃ Ts : List Tree, (buildKids h p ts).kids p = h.kids p ++ Ts.map Tree.id ∧ (∀ T ∈ Ts, Rep (buildKids h p ts) T) ∧
    Ts.map Tree.shape = ts.map Tree.copyShape ∧ (∀ i ∈ Tree.idsL Ts, h.next ≤ i ∧ i < (buildKids h p ts).next)

theorem buildKids_spec (ts : List Tree) : BuildKidsSpec ts := by
  refine Tree.rec_1 (motive_1 := fun T => BuildKidsSpec T.kids) (motive_2 := BuildKidsSpec) ?_ ?_ ?_ ts
  · intro i t v f l ks ih; exact ih
  · intro h p W hp
    simp only [buildKids, buildOne]
    exact ⟨⟨W, Frame.refl _ _ _, id, id, id⟩, [], by simp, by simp, by simp, by simp [Tree.idsL_nil]⟩
  · intro T rest ihT ihR h p W hp
    obtain ⟨i, t, v, f, l, ks⟩ := T
    simp only [buildKids, buildOne]
    obtain ⟨G1, k1, n1, t1, v1, f1, l1, kk1⟩ := alloc_append_spec W hp (copyNode (.node i t v f l ks)) rfl rfl rfl (copyNode_cover _)
    have e0 : (h.alloc (copyNode (.node i t v f l ks))).2 = h.next := rfl
    rw [e0]
    generalize hg1 : appendItem (h.alloc (copyNode (.node i t v f l ks))).1 p h.next = h1 at *
    obtain ⟨G2, Ts2, k2, R2, s2, i2⟩ := ihT h1 h.next G1.wf (by omega)
    simp only [Tree.kids] at G2 k2 R2 s2 i2
    generalize hg2 : buildKids h1 h.next ks = h2 at *
    have hn2 : h1.next ≤ h2.next := G2.frame.next
    obtain ⟨G3, Ts3, k3, R3, s3, i3⟩ := ihR h2 p G2.wf (by omega)
    generalize hg3 : buildKids h2 p rest = h3 at *
    have hn3 : h2.next ≤ h3.next := G3.frame.next
    refine ⟨(G1.trans G2 (Or.inr (Nat.le_refl _))).trans G3 (Or.inl rfl), 
      .node h.next t v f (copyLink (.node i t v f l ks)) Ts2 :: Ts3, ?_, ?_, ?_, ?_⟩
    · rw [k3, G2.frame.kids p (by omega) (by omega), k1]; simp [Tree.id]
    · intro T hT
      rcases List.mem_cons.1 hT with rfl | hT
      · have R2' : Rep h2 (.node h.next t v f (copyLink (.node i t v f l ks)) Ts2) := by
          simp only [Rep, repL_iff]
          refine ⟨?_, ?_, ?_, ?_, ?_, R2⟩
          · rw [G2.frame.tag _ (by omega), t1]; rfl
          · rw [G2.frame.value _ (by omega), v1]; rfl
          · rw [G2.frame.flags _ (by omega), f1]; rfl
          · rw [G2.frame.link _ (by omega), l1]; rfl
          · rw [k2, kk1]; simp
        refine R2'.congr fun j hj => ?_
        have hj' : h.next ≤ j ∧ j < h2.next := by
          rw [Tree.ids_node] at hj
          rcases List.mem_cons.1 hj with rfl | hj
          · omega
          · have := i2 j hj; omega
        exact ⟨G3.frame.tag j hj'.2, G3.frame.value j hj'.2, G3.frame.flags j hj'.2, G3.frame.link j hj'.2, G3.frame.kids j hj'.2 (by omega)⟩
      · exact R3 T hT
    · simp [s3, Tree.shape, shapeL_eq, s2, Tree.copyShape, copyShapeL_eq]
    · intro j hj
      rw [Tree.idsL_cons, List.mem_append, Tree.ids_node] at hj
      rcases hj with hj | hj
      · rcases List.mem_cons.1 hj with rfl | hj
        · omega
        · have := i2 j hj; omega
      · have := i3 j hj; omega

/-- what a copy is: a fresh tree of the same shape; nothing that existed before has changed -/
structure CopySpec (h h' : Heap) (t : Tree) (x : Id) : Prop where
  wf : WF h'
  unchanged : Unchanged h h'
  nz : NoZombie h → NoZombie h'
  forest : Forest h → Forest h'
  nocov : NoCover h → NoCover h'
  root : x = h.next
  lt : x < h'.next
  par : (h'.node x).parent = none
  rep : ∃ T : Tree, T.id = x ∧ Rep h' T ∧ T.shape = t.copyShape ∧ ∀ i ∈ T.ids, h.next ≤ i ∧ i < h'.next

theorem build_spec {h : Heap} (W : WF h) (t : Tree) : CopySpec h (build h t).1 t (build h t).2 := by
  obtain ⟨i, tg, v, f, l, ks⟩ := t
  have A := copyNode_alloc h (.node i tg v f l ks)
  have e0 : (h.alloc (copyNode (.node i tg v f l ks))).2 = h.next := rfl
  have hnx : (h.alloc (copyNode (.node i tg v f l ks))).1.next = h.next + 1 := rfl
  simp only [build, Tree.kids, e0]
  rw [e0] at A
  have W1 := A.wf W
  have hk0 : ∀ i, (h.alloc (copyNode (.node i tg v f l ks))).1.kids i = h.kids i := fun j => AllocRel.kids ⟨rfl, rfl, rfl, rfl, Or.inl rfl⟩ W j
  obtain ⟨G, Ts, k2, R2, s2, i2⟩ := buildKids_spec ks _ h.next W1 (by omega)
  have hkn := A.kids W h.next
  rw [(W.fresh _ (Nat.le_refl _)).1] at hkn
  have hle := G.frame.next
  have U := A.frame
  have ht : ∀ j, j = h.next → (h.alloc (copyNode (.node i tg v f l ks))).1.node j = copyNode (.node i tg v f l ks) := by
    intro j e; simp [Heap.alloc, e]
  generalize (h.alloc (copyNode (.node i tg v f l ks))).1 = h1 at *
  generalize buildKids h1 h.next ks = h2 at *
  refine ⟨G.wf, ?_, fun Z => G.nz (A.noZombie W Z), fun F => G.forest (A.forest W F), fun N => G.nocov (A.noCover N (copyNode_cover _)),
    rfl, by omega, ?_, ?_⟩
  · have := G.frame
    exact
    { next := by omega
      tag := fun i hi => (this.tag i (by omega)).trans (U.tag i hi)
      value := fun i hi => (this.value i (by omega)).trans (U.value i hi)
      flags := fun i hi => (this.flags i (by omega)).trans (U.flags i hi)
      link := fun i hi => (this.link i (by omega)).trans (U.link i hi)
      kids := fun i hi e => (this.kids i (by omega) (by omega)).trans (U.kids i hi e)
      par := fun i hi e => (this.par i (by omega) e).trans (U.par i hi e) }
  · have := G.frame.par h.next (by omega) (fun h => h)
    simp only [Heap.par, ht _ rfl] at this
    simpa [copyNode] using this
  · refine ⟨.node h.next tg v f (copyLink (.node i tg v f l ks)) Ts, rfl, ?_, ?_, ?_⟩
    · simp only [Rep, repL_iff]
      refine ⟨?_, ?_, ?_, ?_, ?_, R2⟩
      · rw [G.frame.tag _ (by omega)]; simp only [Heap.tag, ht _ rfl]; rfl
      · rw [G.frame.value _ (by omega)]; simp only [ht _ rfl]; rfl
      · rw [G.frame.flags _ (by omega)]; simp only [Heap.flags, ht _ rfl]; rfl
      · rw [G.frame.link _ (by omega)]; simp only [ht _ rfl]; rfl
      · rw [k2, hkn]; simp
    · simp [Tree.shape, shapeL_eq, s2, Tree.copyShape, copyShapeL_eq]
    · intro j hj
      rw [Tree.ids_node] at hj
      rcases List.mem_cons.1 hj with rfl | hj
      · omega
      · have := i2 j hj; omega

theorem copyItem_spec {h : Heap} (W : WF h) (x : Id) : CopySpec h (copyItem h x).1 (h.tree x) (copyItem h x).2 := build_spec W _

end ITree
