import Verif.Model.Heap
/-
Specification vocabulary for values: what a Python dict is, and the statement that a call touched nothing but one item's value.
-/
namespace ITree

/-- the bindings of a Python dict: hashable, pairwise different keys -/
def IsDict (d : List (Val × Val)) : Prop :=
  (∀ e ∈ d, e.1.hashable = true) ∧ d.Pairwise fun a b => Val.pyEq a.1 b.1 = false

/-- nothing but the value of `x` differs between the heaps, and that is now `v` -/
def OnlyValue (h h' : Heap) (x : Id) (v : Val) : Prop :=
  h'.next = h.next ∧ (∀ y, y ≠ x → h'.node y = h.node y) ∧ h'.node x = { h.node x with value := v }

end ITree
