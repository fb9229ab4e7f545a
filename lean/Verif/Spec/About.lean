import Verif.Model.Heap
import Verif.Spec.Rep
/-
What is said about items with links: the linked items around an item, and where the chain of linked parents ends.
-/
namespace ITree

/-- `r` is reached from `x` by going up through linked items only (both ends included) -/
inductive LinkedUp (h : Heap) : Id → Id → Prop
  | here {x : Id} : (h.flags x).has Flags.linked = true → LinkedUp h x x
  | up {x p r : Id} : (h.flags x).has Flags.linked = true → h.par x = some p → LinkedUp h p r → LinkedUp h x r

/-- `r` is the highest linked item above `x`: nothing linked follows above -/
def LinkTop (h : Heap) (x r : Id) : Prop := LinkedUp h x r ∧ ∀ q, h.par r = some q → (h.flags q).has Flags.linked = false

/-- the own link of `x` is loaded or, if `x` has none, the link of some link root below `x` is -/
def LinkLoaded (h : Heap) (x : Id) : Prop :=
  (∃ lk, (h.node x).link = some lk ∧ lk.loaded = true) ∨
    ((h.node x).link = none ∧ ∃ y, Below h x y ∧ y ≠ x ∧ h.isLinkRoot y = true ∧ ∃ lk, (h.node y).link = some lk ∧ lk.loaded = true)

/-- names of the flags in the order in which they are shown, the public ones first -/
def flagTable (publicOnly : Bool) : List (Flags × String) :=
  [(Flags.readOnlyTree, "iTFLAG.READ_ONLY_TREE"), (Flags.readOnlyValue, "iTFLAG.READ_ONLY_VALUE"), (Flags.loadLinks, "iTFLAG.LOAD_LINKS")] ++
    if publicOnly then [] else [(Flags.linked, "_iTFLAG.LINKED"), (Flags.linkRoot, "_iTFLAG.LINK_ROOT"), (Flags.placeholder, "_iTFLAG.PLACEHOLDER")]

end ITree
