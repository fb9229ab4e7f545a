import Verif.Model.Links
/-
Specification of linked trees.
-/
namespace ITree

mutual
/-- the linked mirror of a tree: the same tags, values and structure, every item marked as linked -/
def Tree.linkedCopy : Tree → Tree
  | .node i t v f l ks => .node i t v (f ||| Flags.linked) (copyLink (.node i t v f l ks)) (Tree.linkedCopyL ks)
def Tree.linkedCopyL : List Tree → List Tree
  | [] => []
  | k :: ks => k.linkedCopy :: Tree.linkedCopyL ks
end

mutual
/-- only the last one among siblings has children (below the item) -/
def Tree.LastOnly : Tree → Prop
  | .node _ _ _ _ _ ks => Tree.LastOnlyL ks
def Tree.LastOnlyL : List Tree → Prop
  | [] => True
  | k :: ks => if ks = [] then k.LastOnly else k.kids = [] ∧ Tree.LastOnlyL ks
end

/-- the source key a child stands for after loading -/
def LOut.stands {α : Type} : LOut α → Option LKey
  | .new k => some k
  | .old _ k true => some k
  | .old _ _ false => Option.none

/-- the old child that is kept -/
def LOut.kept {α : Type} : LOut α → Option α
  | .new _ => Option.none
  | .old x _ _ => some x

end ITree
