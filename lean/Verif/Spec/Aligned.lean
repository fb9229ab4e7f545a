import Verif.Spec.History
/-
Specification: the tag view of an item agrees with its item order.
-/
namespace ITree

/-- For every tag, `p[tag]` delivers exactly the children carrying the tag, in item order; tags without children are not found. -/
def Aligned (h : Heap) (p : Id) : Prop := ∀ t, getItem h p (.tag t) = if (h.kids p).filter (fun c => h.tag c = t) = [] then .error .key
  else .ok (.many ((h.kids p).filter fun c => h.tag c = t))

end ITree
