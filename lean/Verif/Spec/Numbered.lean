import Verif.Spec.WF
/-
Specification: the keys of the children.
-/
namespace ITree

/-- the children with their keys: the n-th child with a tag has the key (tag, n), counted from 0 in item order -/
def numbered (h : Heap) (p : Id) : List ((Tag × Nat) × Id) :=
  (h.kids p).zipIdx.map fun e => ((h.tag e.1, (((h.kids p).take e.2).filter fun y => h.tag y = h.tag e.1).length), e.1)

end ITree
