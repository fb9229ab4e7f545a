import Verif.Proofs.Fresh
import Verif.Proofs.Build
import Verif.Proofs.Attach
/-
Stored family positions stay true when items are appended or copied.
-/
namespace ITree

/-- every stored family position is the true one -/
def AllFresh (h : Heap) : Prop := ∀ p x, x ∈ h.kids p → Fresh .fam h (famView h p (h.tag x)) x

theorem AllFresh.struct {h h' : Heap} (F : AllFresh h) (ht : ∀ i, h'.tag i = h.tag i) (hk : ∀ i, h'.kids i = h.kids i) (hp : ∀ i, (h'.node i).parent = (h.node i).parent) : AllFresh h' := by
  intro p x hx
  rw [hk] at hx
  obtain ⟨r, e1, e2, e3⟩ := F p x hx
  refine ⟨r, by rw [hp]; exact e1, e2, ?_⟩
  simpa only [famView, hk, ht] using e3

theorem AllFresh.structEq {h h' : Heap} (F : AllFresh h) (S : StructEq h h') : AllFresh h' := F.struct S.tag S.kids S.parent
theorem AllFresh.obs {h h' : Heap} (F : AllFresh h) (S : ObsEq h h') : AllFresh h' := F.struct S.tag S.kids S.parent

/-- an item put at the end, its position written -/
theorem AllFresh.attach {h h' : Heap} (F : AllFresh h) (W : WF h) {p x : Id} (A : AttachRel h h' p x (h.kids p).length) (hx : (h.node x).parent = none)
    (ho : ∀ i, i ≠ x → (h'.node i).parent = (h.node i).parent) (hr : ∃ r, (h'.node x).parent = some r ∧ r.famC = (famView h p (h.tag x)).length) : AllFresh h' := by
  have hk : h'.kids p = h.kids p ++ [x] := by rw [A.kids_p]; simp
  have hv : ∀ t, famView h' p t = famView h p t ++ (if h.tag x = t then [x] else []) := by
    intro t
    simp only [famView, hk, A.tag, List.filter_append]
    congr 1
    by_cases e : h.tag x = t <;> simp [e]
  have hold : ∀ q y, y ∈ h.kids q → y ≠ x := fun q y hy e => W.not_child hx q (e ▸ hy)
  intro q y hy
  by_cases e : q = p
  · subst e
    rw [hk, List.mem_append] at hy
    rcases hy with hy | hy
    · obtain ⟨r, e1, e2, e3⟩ := F q y hy
      refine ⟨r, by rw [ho y (hold q y hy)]; exact e1, e2, ?_⟩
      rw [A.tag, hv]
      exact List.getElem?_append_left (List.getElem?_eq_some_iff.1 e3).1 ▸ e3
    · obtain rfl : y = x := by simpa using hy
      obtain ⟨r, e1, e2⟩ := hr
      refine ⟨r, e1, by simp only [PRef.getC, e2]; omega, ?_⟩
      rw [A.tag, hv]
      simp [PRef.getC, e2]
  · rw [A.kids_o q e] at hy
    obtain ⟨r, e1, e2, e3⟩ := F q y hy
    refine ⟨r, by rw [ho y (hold q y hy)]; exact e1, e2, ?_⟩
    simpa only [famView, A.kids_o q e, A.tag] using e3

theorem famAppend_snd {h : Heap} {p : Id} {F : Fams} (O : FamOK h p F) (t : Tag) (x : Id) : (famAppend F t x).2 = (famView h p t).length := by
  unfold famAppend
  rw [O.get]
  split
  · next e =>
    split at e
    · next e' => rw [e']; rfl
    · cases e
  · next l e =>
    split at e
    · cases e
    · cases e; rfl

theorem AllFresh.append1 {h : Heap} (F : AllFresh h) (W : WF h) {p x : Id} (hx : (h.node x).parent = none) : AllFresh (appendItem h p x) := by
  refine F.attach W (appendItem_attach W hx) hx ?_ ?_
  · intro i hi
    unfold appendItem
    split
    · simp only [Heap.setParent, Heap.modify, hi, if_false]
      split <;> rfl
    · simp only [Heap.setParent, Heap.setFams, Heap.setItems, Heap.modify, hi, if_false]
      split <;> rfl
  · by_cases hk : h.kids p = []
    · refine ⟨⟨p, 0, 0, false⟩, ?_, by simp [famView, hk]⟩
      unfold appendItem
      simp only [hk, parent_setParent, if_true]
    · obtain ⟨G, hb, -, hO⟩ := W.bound hk
      refine ⟨⟨p, (h.kids p).length, (famAppend G (h.tag x) x).2, false⟩, ?_, by simp only [famAppend_snd hO]⟩
      unfold appendItem
      split
      · next e => exact (hk e).elim
      · simp only [hb, Option.getD_some, parent_setParent, if_true]

theorem AllFresh.alloc {h : Heap} (F : AllFresh h) (W : WF h) (n : Node) (h1 : n.parent = none) (h2 : n.items = []) : AllFresh (h.alloc n).1 := by
  intro p x hx
  have hn : ∀ i, (h.alloc n).1.node i = if i = h.next then n else h.node i := fun i => rfl
  have hp : p ≠ h.next := by rintro rfl; simp only [Heap.kids, hn, if_true, h2] at hx; cases hx
  have hk : (h.alloc n).1.kids p = h.kids p := by simp only [Heap.kids, hn, if_neg hp]
  rw [hk] at hx
  have ht : ∀ c ∈ h.kids p, (h.alloc n).1.node c = h.node c := fun c hc => by rw [hn, if_neg (Nat.ne_of_lt (W.kids_lt p c hc))]
  obtain ⟨r, e1, e2, e3⟩ := F p x hx
  refine ⟨r, by rw [ht x hx]; exact e1, e2, ?_⟩
  have : famView (h.alloc n).1 p ((h.alloc n).1.tag x) = famView h p (h.tag x) := by
    simp only [famView, hk]
    refine List.filter_congr fun c hc => decide_eq_decide.2 ?_
    simp only [Heap.tag, ht x hx, ht c hc]
  rw [this]; exact e3

theorem buildKids_fresh (ts : List Tree) : ∀ (h : Heap) (p : Id), WF h → p < h.next → AllFresh h → AllFresh (buildKids h p ts) := by
  refine Tree.rec_1 (motive_1 := fun T => ∀ (h : Heap) (p : Id), WF h → p < h.next → AllFresh h → AllFresh (buildKids h p T.kids))
    (motive_2 := fun ts => ∀ (h : Heap) (p : Id), WF h → p < h.next → AllFresh h → AllFresh (buildKids h p ts)) ?_ ?_ ?_ ts
  · intro i t v f l ks ih; exact ih
  · intro h p W hp F; simpa only [buildKids] using F
  · intro T rest ihT ihR h p W hp F
    obtain ⟨i, t, v, f, l, ks⟩ := T
    simp only [buildKids, buildOne]
    obtain ⟨G1, k1, n1, -⟩ := alloc_append_spec W hp (copyNode (.node i t v f l ks)) rfl rfl rfl (copyNode_cover _)
    have e0 : (h.alloc (copyNode (.node i t v f l ks))).2 = h.next := rfl
    have A : AllocRel h (h.alloc (copyNode (.node i t v f l ks))).1 h.next (copyNode (.node i t v f l ks)) := ⟨rfl, rfl, rfl, rfl, Or.inl rfl⟩
    have F1 : AllFresh (appendItem (h.alloc (copyNode (.node i t v f l ks))).1 p h.next) := by
      refine (F.alloc W _ rfl rfl).append1 (A.wf W) ?_
      simp [Heap.alloc, copyNode]
    rw [e0]
    generalize appendItem (h.alloc (copyNode (.node i t v f l ks))).1 p h.next = h1 at *
    have F2 := ihT h1 h.next G1.wf (by omega) F1
    obtain ⟨G2, -⟩ := buildKids_spec ks h1 h.next G1.wf (by omega)
    simp only [Tree.kids] at F2
    refine ihR _ p G2.wf ?_ F2
    have := G2.frame.next
    omega

end ITree
