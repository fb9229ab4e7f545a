import Verif.Spec.Rep
import Verif.Proofs.Rep
/-
What a link to a file shows.
-/
namespace ITree

/-- `y` is in `h'` a linked item that shows the item `c` of `h` (which may belong to another process): in deep order the items from `y` down have the tags and values of the items from `c` down, and all are linked -/
def Shows (h h' : Heap) (c y : Id) : Prop :=
  ∃ T : Tree, T.id = y ∧ Rep h' T ∧ T.pre.map (fun t => (t.tag, t.value)) = (h.tree c).pre.map (fun t => (t.tag, t.value)) ∧ ∀ i ∈ T.ids, (h'.flags i).has Flags.linked = true

end ITree
