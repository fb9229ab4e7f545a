import Verif.Model.Subtract
import Verif.Proofs.Reach
/-
Subtraction reads the old items through caches and changes new items only.
-/
namespace ITree

/-- the objects of `N` are as in `h0` but for their caches, and nothing outside refers to them -/
structure Old (N : Id → Prop) (h0 h : Heap) : Prop where
  sep : Sep N True h
  next : h0.next ≤ h.next
  node : ∀ i, N i → h.node i = { h0.node i with parent := (h.node i).parent }
  par : ∀ i, N i → PEq (h0.node i).parent (h.node i).parent

section
variable {N : Id → Prop} {h0 h h' : Heap}

theorem Old.ni (A : Old N h0 h) (B : NI N True h h') : Old N h0 h' where
  sep := B.sep
  next := Nat.le_trans A.next B.next
  node i hi := by rw [B.same i hi]; exact A.node i hi
  par i hi := by rw [B.same i hi]; exact A.par i hi

theorem Sep.ceq (S : Sep N True h) (H : CEq h h') : Sep N True h' where
  lt i hi := by rw [H.next]; exact S.lt i hi
  out i hi := by
    have o := S.out i hi
    refine ⟨?_, ?_, ?_, ?_, ?_⟩
    · have := H.kids i; simp only [Heap.kids] at this; rw [this]; exact o.items
    · intro r hr
      cases hq : (h.node i).parent with
      | none => rw [(H.parent_none i).2 hq] at hr; cases hr
      | some q =>
        obtain ⟨r', e1, e2, _⟩ := H.parent_some hq
        rw [e1] at hr; cases hr
        rw [e2]; exact o.parent q hq
    · intro F hF; rw [H.fams] at hF; exact o.fams F hF
    · intro F hF; rw [H.stale] at hF; exact o.stale F hF
    · intro l y e1 e2; rw [H.link] at e1; exact o.cover l y e1 e2

theorem Old.ceq (A : Old N h0 h) (H : CEq h h') : Old N h0 h' where
  sep := A.sep.ceq H
  next := by rw [H.next]; exact A.next
  node i hi := by rw [H.node i, A.node i hi]
  par i hi := (A.par i hi).trans (H.par i)

theorem Old.subDelete {p : Id} (hp : ¬ N p) : ∀ (is : List Int) {h : Heap}, Old N h0 h → Old N h0 (subDelete h p is).1
  | [], _, A => A
  | i :: is, h, A => by
    unfold ITree.subDelete
    simp only
    have B := A.ni (NI.delItem A.sep (tg := .int i) hp)
    split
    · exact B
    · exact subDelete hp is B

mutual
theorem Old.subItem (O : SubOps) : ∀ (U : Tree) {h : Heap} (t : Id), Old N h0 h → Old N h0 (subItem O h t U).1 ∧ ResOut N (subItem O h t U).2
  | .node i tag value fl lk ks, h, t, A => by
    obtain ⟨B, hc⟩ := NI.copyItem A.sep t
    have A1 := A.ni B
    have A2 := A1.ni (NI.modify (f := subHead O (h.tag t) tag (h.node t).value value) A1.sep hc (by
      have o := A1.sep.out _ hc
      exact ⟨o.items, o.parent, o.fams, o.stale, o.cover⟩))
    have A3 := Old.subLoop O ks [] A2 hc
    unfold ITree.subItem
    simp only
    split
    · exact ⟨A3, by intro x hx; cases hx⟩
    · next del hd =>
      have A4 := Old.subDelete hc del.reverse A3
      split
      · exact ⟨A4, by intro x hx; cases hx⟩
      · exact ⟨A4, by intro x hx; cases hx; exact hc⟩
theorem Old.subLoop (O : SubOps) : ∀ (ks : List Tree) (acc : List Int) {h : Heap} {new : Id}, Old N h0 h → ¬ N new → Old N h0 (subLoop O h new ks acc).1
  | [], acc, h, new, A, hn => by unfold ITree.subLoop; exact A
  | k :: ks, acc, h, new, A, hn => by
    have A1 := A.ceq (tagIdx_ceq h k.id)
    unfold ITree.subLoop
    simp only
    split
    · exact A1
    · next key hk =>
      split
      · exact A1
      · next tg htg =>
        split
        · next o ho =>
          have A2 := A1.ceq (idx_ceq (h.tagIdx k.id).1 o)
          split
          · exact A2
          · exact A2
          · exact Old.subLoop O ks _ A2 hn
        · split
          · exact A1
          · exact A1
          · next o ho =>
            obtain ⟨A2, hx⟩ := Old.subItem O k o A1
            split
            · exact A2
            · next x hx' =>
              have A3 := A2.ni (NI.setItem A2.sep (tg := tg) (a := .item x) hn (by rintro i ⟨⟩; exact hx x hx'))
              split
              · exact A3
              · exact Old.subLoop O ks _ A3 hn
end
end

end ITree
