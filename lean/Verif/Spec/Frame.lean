import Verif.Spec.WF
/-
Specification: what a call leaves alone.
-/
namespace ITree

/-- The items existing before keep tag, value, flags and link; only the items of `K` may have another list of children and only the
items of `P` another parent. -/
structure Frame (h h' : Heap) (K P : Id → Prop) : Prop where
  next : h.next ≤ h'.next
  tag : ∀ i, i < h.next → h'.tag i = h.tag i
  value : ∀ i, i < h.next → (h'.node i).value = (h.node i).value
  flags : ∀ i, i < h.next → h'.flags i = h.flags i
  link : ∀ i, i < h.next → (h'.node i).link = (h.node i).link
  kids : ∀ i, i < h.next → ¬ K i → h'.kids i = h.kids i
  par : ∀ i, i < h.next → ¬ P i → h'.par i = h.par i

/-- nothing observable changed for the items existing before -/
def Unchanged (h h' : Heap) : Prop := Frame h h' (fun _ => False) (fun _ => False)

theorem Frame.mono {h h' : Heap} {K P K' P' : Id → Prop} (F : Frame h h' K P) (hK : ∀ i, K i → K' i) (hP : ∀ i, P i → P' i) :
    Frame h h' K' P' :=
  ⟨F.next, F.tag, F.value, F.flags, F.link, fun i hi hk => F.kids i hi (fun a => hk (hK i a)),
    fun i hi hk => F.par i hi (fun a => hk (hP i a))⟩

theorem Frame.refl (h : Heap) (K P : Id → Prop) : Frame h h K P :=
  ⟨Nat.le_refl _, fun _ _ => rfl, fun _ _ => rfl, fun _ _ => rfl, fun _ _ => rfl, fun _ _ _ => rfl, fun _ _ _ => rfl⟩

theorem Frame.trans {h1 h2 h3 : Heap} {K P : Id → Prop} (A : Frame h1 h2 K P) (B : Frame h2 h3 K P) : Frame h1 h3 K P where
  next := Nat.le_trans A.next B.next
  tag i hi := (B.tag i (Nat.lt_of_lt_of_le hi A.next)).trans (A.tag i hi)
  value i hi := (B.value i (Nat.lt_of_lt_of_le hi A.next)).trans (A.value i hi)
  flags i hi := (B.flags i (Nat.lt_of_lt_of_le hi A.next)).trans (A.flags i hi)
  link i hi := (B.link i (Nat.lt_of_lt_of_le hi A.next)).trans (A.link i hi)
  kids i hi hk := (B.kids i (Nat.lt_of_lt_of_le hi A.next) hk).trans (A.kids i hi hk)
  par i hi hk := (B.par i (Nat.lt_of_lt_of_le hi A.next) hk).trans (A.par i hi hk)

end ITree
