import Verif.Spec.Frame
import Verif.Spec.Links
import Verif.Spec.Rep
import Verif.Proofs.Rep
/-
What loading a link may change.
-/
namespace ITree

/-- Loading the children of the link root `p` keeps every item: its tag, value and flags, its children (except those of `p`), its parent and its link (except of `p` and of the old children of `p`). -/
structure LoadFrame (h h' : Heap) (p : Id) : Prop where
  next : h.next ≤ h'.next
  tag : ∀ i, i < h.next → h'.tag i = h.tag i
  value : ∀ i, i < h.next → (h'.node i).value = (h.node i).value
  flags : ∀ i, i < h.next → h'.flags i = h.flags i
  kids : ∀ i, i < h.next → i ≠ p → h'.kids i = h.kids i
  par : ∀ i, i < h.next → i ∉ h.kids p → h'.par i = h.par i
  link : ∀ i, i < h.next → i ≠ p → i ∉ h.kids p → (h'.node i).link = (h.node i).link

/-- tag, value and flags of an item -/
def Tree.facts (T : Tree) : Tag × Val × Flags := (T.tag, T.value, T.flags)
/-- … marked as linked -/
def Tree.linkedData (T : Tree) : Tag × Val × Flags := (T.tag, T.value, T.flags ||| Flags.linked)

/-- `y` is in `h'` a linked item made for the item `c` of `h`: all items below it (and `y`) are new, in deep order they have the tags, values and flags of `c` and the items below it, marked as linked; and the
structure is the same if below `c` only last siblings have children. -/
def MirrorOf (h h' : Heap) (c y : Id) : Prop :=
  ∃ T : Tree, T.id = y ∧ Rep h' T ∧ (∀ i ∈ T.ids, h.next ≤ i) ∧ T.pre.map Tree.facts = (h.tree c).pre.map Tree.linkedData ∧
    ((h.tree c).LastOnly → T.shape = (h.tree c).linkedCopy.copyShape)

/-- what is needed of the source `s` and the link root `p` to load without an error: separate trees; no child of the source is a link root or linked itself; `tag_idx` of the children of the source delivers
pairs (C18); the link root has no placeholder child -/
structure Loadable (h : Heap) (p s : Id) : Prop where
  wf : WF h
  forest : Forest h
  lt : p < h.next
  apart : ∀ i ∈ (h.tree s).ids, i ∉ (h.tree p).ids
  plain : ∀ c ∈ h.kids s, (h.flags c).has Flags.linkRoot = false ∧ (h.flags c).has Flags.linked = false
  keys : ∀ c ∈ h.kids s, ∃ t m, (h.tagIdx c).2 = .ok (.pair t m)
  real : ∀ c ∈ h.kids p, (h.flags c).has Flags.placeholder = false

end ITree
