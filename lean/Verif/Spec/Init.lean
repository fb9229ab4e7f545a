import Verif.Spec.Rep
import Verif.Proofs.Rep
/-
Specification: shapes with flags pushed into every level, shapes of copies.
-/
namespace ITree

mutual
/-- the flags `f` added at every level -/
def Shape.or (f : Flags) : Shape → Shape
  | .node t v g l ks => .node t v (g ||| f) l (Shape.orL f ks)
def Shape.orL (f : Flags) : List Shape → List Shape
  | [] => []
  | k :: ks => Shape.or f k :: Shape.orL f ks
end

mutual
/-- copying keeps the link target of link roots only; everything else is taken over -/
def Shape.copy : Shape → Shape
  | .node t v g l ks => .node t v g (if g.has Flags.linkRoot then l.map fun s => { file := s.file, path := s.path } else none) (Shape.copyL ks)
def Shape.copyL : List Shape → List Shape
  | [] => []
  | k :: ks => Shape.copy k :: Shape.copyL ks
end

open Classical in
/-- the tree `T` was made from the argument `a` in the heap `h`, `seen` are the arguments before it: a plain value becomes a new leaf; an item without parent that
did not occur before is used itself; any other item is copied.  The flags `f` are added at every level. -/
def MadeAt (h : Heap) (f : Flags) (seen : List Arg) (a : Arg) (T : Tree) : Prop :=
  match a with
  | .val v => T.shape = .node .noTag v f none [] ∧ ∀ j ∈ T.ids, h.next ≤ j
  | .item i =>
    if h.par i = none ∧ Arg.item i ∉ seen then T.ids = (h.tree i).ids ∧ T.shape = (h.tree i).shape.or f
    else (∀ j ∈ T.ids, h.next ≤ j) ∧ T.shape = (h.tree i).shape.copy.or f

end ITree
