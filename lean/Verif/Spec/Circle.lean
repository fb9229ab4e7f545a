import Verif.Spec.FindLink
import Verif.Spec.Rep
import Verif.Model.FindLink
/-
What a circle of links is: link roots whose sources contain such link roots again.
-/
namespace ITree

/-- the path leads from `r` to the item `s`, through items that are no link roots (loading a link may change the children of link roots, and only theirs) -/
inductive LeadsVia (h : Heap) : Id → List Tag → Id → Prop
  | here (r : Id) : LeadsVia h r [] r
  | step {r x s : Id} {t : Tag} {ts : List Tag} : r < h.next → h.isLinkRoot r = false → LeadsTo h r [t] x → LeadsVia h x ts s → LeadsVia h r (t :: ts) s

/-- The link roots `S` form a circle.  Each has a link into the own tree that is going to be loaded (it was not loaded before, or loading is forced); the link leads to an item that has a link root of `S` among its children.
The link roots and the items above them are no linked items, the items above them are no link roots.  Only one element of a path can be taken for the tag of the root (see `C76_twice_wrong`). -/
structure Circular (h : Heap) (force : Bool) (S : Id → Prop) : Prop where
  root : ∀ p, S p → p < h.next ∧ h.isLinkRoot p = true
  own : ∀ p, S p → ∀ k a, ancestor h k p = some a → (h.flags a).has Flags.linked = false ∧ (k ≠ 0 → h.isLinkRoot a = false)
  next : ∀ p, S p → ∃ lk, (h.node p).link = some lk ∧ lk.OwnTree ∧ (force = true ∨ lk.loaded = false) ∧
    dropRoot (h.tag (h.root p)) (dropRoot (h.tag (h.root p)) lk.path) = dropRoot (h.tag (h.root p)) lk.path ∧
    ∃ s c, LeadsVia h (h.root p) (dropRoot (h.tag (h.root p)) lk.path) s ∧ s < h.next ∧ h.isLinkRoot s = false ∧ c ∈ h.kids s ∧ S c

/-- `x` is a link root of `S`, or one is found below `x` without passing another link root -/
inductive Contains (h : Heap) (S : Id → Prop) : Id → Prop
  | here {c : Id} : S c → Contains h S c
  | down {x c : Id} : x < h.next → h.isLinkRoot x = false → c ∈ h.kids x → Contains h S c → Contains h S x

end ITree
