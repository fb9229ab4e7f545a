import Verif.Model.FindLink
import Verif.Spec.Rep
/-
Specification of link targets: where a path of positions and keys leads.
-/
namespace ITree

/-- `x` is the element of `l` with the Python index `i` (negative indexes count from the end) -/
def AtIdx (l : List Id) (i : Int) (x : Id) : Prop := ∃ n : Nat, l[n]? = some x ∧ (i = n ∨ i = (n : Int) - l.length)

/-- The path leads from `p` to `y`: an integer chooses a child by its position, a pair of a tag and an integer a child by its position among the children with this tag. -/
inductive LeadsTo (h : Heap) : Id → List Tag → Id → Prop
  | here (p : Id) : LeadsTo h p [] p
  | idx {p x y : Id} {i : Int} {ts : List Tag} : AtIdx (h.kids p) i x → LeadsTo h x ts y → LeadsTo h p (.int i :: ts) y
  | key {p x y : Id} {g : Tag} {i : Int} {ts : List Tag} : AtIdx ((h.kids p).filter fun c => h.tag c = g) i x → LeadsTo h x ts y → LeadsTo h p (.pair g (.int i) :: ts) y

/-- the path without its first element if this is the tag of the root -/
def dropRoot (r : Tag) : List Tag → List Tag
  | [] => []
  | t :: ts => if t = r then ts else t :: ts

/-- the link refers to the own tree: no file is given, or the empty name -/
def LinkSt.OwnTree (l : LinkSt) : Prop := l.file = none ∨ l.file = some ""

/-- the link refers to the file `f` -/
def LinkSt.InFile (l : LinkSt) (f : String) : Prop := l.file = some f ∧ f ≠ ""

/-- What is needed of a link root `x` to be loaded without an error from its source `s`: it has no children; its link refers to no file, is not loaded yet (or loading is forced) and its path leads from the root of its tree
to `s` (a leading root tag is left out); `s` and the items below are no link roots; the children of `s` are not linked themselves and `tag_idx` of them delivers a pair (C18). -/
structure Good (h : Heap) (force : Bool) (x s : Id) : Prop where
  lt : x < h.next
  empty : h.kids x = []
  link : ∃ lk, (h.node x).link = some lk ∧ lk.OwnTree ∧ (force = true ∨ lk.loaded = false) ∧ LeadsTo h (h.root x) (dropRoot (h.tag (h.root x)) lk.path) s
  noRoot : ∀ y, Below h s y → h.isLinkRoot y = false
  plain : ∀ c ∈ h.kids s, (h.flags c).has Flags.linked = false
  reads : ∀ c ∈ h.kids s, ∃ m, (h.tagIdx c).2 = .ok (.pair (h.tag c) m)

end ITree
