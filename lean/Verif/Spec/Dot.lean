import Verif.Model.Dot
import Verif.Spec.Order
import Verif.Spec.Rep
/-
Specification of the graph description of a tree.
-/
namespace ITree

/-- how an item is called: its tag, and below a parent its number among the children with this tag -/
def callText (P : DotReprs) (h : Heap) (y : Id) : List Char :=
  match h.par y with
  | none => if h.tag y = .noTag then "NoTag".toList else P.tag (h.tag y)
  | some q =>
    let m : Int := (((h.kids q).filter fun c => h.tag c = h.tag y).idxOf y : Nat)
    if h.tag y = .noTag then "(NoTag,".toList ++ P.int m ++ ")".toList else P.key (h.tag y) m

/-- the second field of the box: the value or, for a link root without value, the link -/
def fieldOf (P : DotReprs) (f : Flags) (l : Option LinkSt) : Val → List Char
  | .noValue => if f.has Flags.linkRoot then "| ".toList ++ P.link l else []
  | v => "| value=".toList ++ P.val v
/-- … of an item -/
def fieldText (P : DotReprs) (h : Heap) (y : Id) : List Char := fieldOf P (h.flags y) (h.node y).link (h.node y).value

/-- linked items are grey, value-protected ones light, link roots blue -/
def colourText (f : Flags) : List Char :=
  if f.has Flags.linked then ", fillcolor=grey".toList
  else if f.has Flags.readOnlyValue then ", fillcolor=cadetblue1".toList
  else if f.has Flags.linkRoot then ", fillcolor=cornflowerblue".toList else []

/-- braces get a backslash -/
def braces (s : List Char) : List Char := (s.map fun c => if c = '{' ∨ c = '}' then ['\\', c] else [c]).flatten

/-- the statement of node number `n` for item `y` (without the end of the statement) -/
def nodeText (P : DotReprs) (h : Heap) (n : Nat) (y : Id) : List Char :=
  braces ("item".toList ++ P.int n ++ " [label=\"".toList ++ callText P h y ++ fieldText P h y ++ "\"".toList ++ colourText (h.flags y))

/-- what is printed for an item below the root: its node statement and the edge from its parent -/
def nodeAndEdge (P : DotReprs) (h : Heap) (num : Id → Nat) (y : Id) : List Char :=
  "\n".toList ++ nodeText P h (num y) y ++ "];".toList ++
    "\n item".toList ++ P.int (num ((h.par y).getD y)) ++ " -- item".toList ++ P.int (num y) ++ (if (h.flags y).has Flags.linked then "  [style=dotted];".toList else ";".toList)

/-- the number of an item: its position in the (hierarchically filtered) pre-order, the start item has number 0 -/
def dotNum (f : Id → Bool) (T : Tree) (y : Id) : Nat := (T.id :: Tree.preFL f T.kids).idxOf y

end ITree
