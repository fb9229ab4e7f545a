import Verif.Spec.Dump
/-
Specification of a filtered dump.
-/
namespace ITree

/-- the part of a filter that looks at items of the tree -/
def onItems (f : DItem → Bool) : Id → Bool := fun i => f (.item i)

mutual
/-- the tree without the items that are refused by `f` and without everything below them; the root stays -/
def Tree.prune (f : Id → Bool) : Tree → Tree
  | .node i t v g l ks => .node i t v g l (Tree.pruneL f ks)
def Tree.pruneL (f : Id → Bool) : List Tree → List Tree
  | [] => []
  | k :: ks => if f k.id then k.prune f :: Tree.pruneL f ks else Tree.pruneL f ks
end

/-- `y` is `x` or stays when the tree below `x` is filtered by `f`: all items on the way from `x` down to `y` pass the filter -/
inductive Stays (f : Id → Bool) (h : Heap) (x : Id) : Id → Prop
  | root : Stays f h x x
  | kid {y c} : Stays f h x y → c ∈ h.kids y → f c = true → Stays f h x c

end ITree
