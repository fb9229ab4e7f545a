import Verif.Spec.Frame
/-
Specification: the tree an item is the root of, and tree shapes without object identities.
-/
namespace ITree

/-- A tree without object identities: what is left of a tree when only tags, values, flags, link targets and order count. -/
inductive Shape where
  | node (tag : Tag) (value : Val) (flags : Flags) (link : Option LinkSt) (kids : List Shape)
  deriving Inhabited

mutual
/-- forget the identities -/
def Tree.shape : Tree → Shape
  | .node _ t v f l ks => .node t v f l (Tree.shapeL ks)
def Tree.shapeL : List Tree → List Shape
  | [] => []
  | k :: ks => k.shape :: Tree.shapeL ks
end

mutual
/-- the shape of a copy: links of link roots are kept by target only (not loaded, nothing covered), other items have no link -/
def Tree.copyShape : Tree → Shape
  | .node i t v f l ks => .node t v f (copyLink (.node i t v f l ks)) (Tree.copyShapeL ks)
def Tree.copyShapeL : List Tree → List Shape
  | [] => []
  | k :: ks => k.copyShape :: Tree.copyShapeL ks
end

mutual
/-- `T` is exactly the tree below its root object in the heap: every node of `T` carries the data of the object and its children are, in order,
the children of the object. -/
def Rep (h : Heap) : Tree → Prop
  | .node i t v f l ks => h.tag i = t ∧ (h.node i).value = v ∧ h.flags i = f ∧ (h.node i).link = l ∧ h.kids i = ks.map Tree.id ∧ RepL h ks
def RepL (h : Heap) : List Tree → Prop
  | [] => True
  | k :: ks => Rep h k ∧ RepL h ks
end

/-- no infinite descent into children -/
def Forest (h : Heap) : Prop := WellFounded fun c p => c ∈ h.kids p

/-- `y` is `x` or an item somewhere below `x` -/
inductive Below (h : Heap) (x : Id) : Id → Prop
  | refl : Below h x x
  | step {p c : Id} : Below h x p → c ∈ h.kids p → Below h x c

/-- the k-th ancestor of an item -/
def ancestor (h : Heap) : Nat → Id → Option Id
  | 0, x => some x
  | k + 1, x => (h.par x).bind (ancestor h k)

end ITree
