import Verif.Spec.Serialize
import Verif.Spec.Rep
/-
Specification: the rows of a dump.
-/
namespace ITree

def Tree.tagOf : Tree → Tag | .node _ t _ _ _ _ => t

mutual
/-- What a dump stores of a tree, `f` being the filter (everything passes if there is none): the data of the item and, in order, what passes the filter of its children.  Below a link root a linked child is
replaced by a placeholder – an item with the same tag, its position among the children with this tag as value, and nothing below – if the child before it was not replaced; the first child is never replaced. -/
def Tree.stored (f : DItem → Bool) : Tree → Shape
  | .node _ t v g l ks => .node t v g l (Tree.storedL f (g.has Flags.linkRoot) false [] ks)
/-- `link`: below a link root; `add`: there is a child before, and it was not replaced; `seen`: the tags of the children before -/
def Tree.storedL (f : DItem → Bool) (link add : Bool) (seen : List Tag) : List Tree → List Shape
  | [] => []
  | k :: ks =>
    if link && add && k.flags.has Flags.linked then
      (if f (.ph k.tagOf (seen.count k.tagOf)) then [.node k.tagOf (.int (seen.count k.tagOf)) Flags.placeholder none []] else []) ++ Tree.storedL f link false (seen ++ [k.tagOf]) ks
    else (if f (.item k.id) then [Tree.stored f k] else []) ++ Tree.storedL f link true (seen ++ [k.tagOf]) ks
end

/-- what a dump of this tree stores: the root is never filtered and its children are never replaced -/
def Tree.saved (f : DItem → Bool) : Tree → Shape
  | .node _ t v g l ks => .node t v g l (Tree.storedL f false false [] ks)

/-- the children of a link root are local items -/
def LocalKids (h : Heap) (x : Id) : Prop := (h.flags x).has Flags.linkRoot = true → ∀ c ∈ h.kids x, (h.flags c).has Flags.linked = false

end ITree
