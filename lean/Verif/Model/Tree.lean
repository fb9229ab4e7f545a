import Verif.Model.Heap
/-
Finite trees as they are seen from an item: used for copies, deep iteration and comparison.
-/
namespace ITree

/-- A snapshot of an item with everything below it.  `id` is the identity of the object the snapshot was taken from. (no code: an item of itree_main.py 73-90 with everything below it) -/
inductive Tree where
  | node (id : Id) (tag : Tag) (value : Val) (flags : Flags) (link : Option LinkSt) (kids : List Tree)
  deriving Inhabited

namespace Tree
/-- identity of the root object (no code) -/
def id : Tree → Id | node i _ _ _ _ _ => i
/-- `_tag` (itree_main.py 374-390) -/
def tag : Tree → Tag | node _ t _ _ _ _ => t
/-- `_value` (itree_main.py 911-919) -/
def value : Tree → Val | node _ _ v _ _ _ => v
/-- `_flags` (itree_main.py 784-796) -/
def flags : Tree → Flags | node _ _ _ f _ _ => f
/-- `_link` (itree_main.py 73-90) -/
def link : Tree → Option LinkSt | node _ _ _ _ l _ => l
/-- the children (itree_main.py 73-90) -/
def kids : Tree → List Tree | node _ _ _ _ _ ks => ks

mutual
/-- the item itself followed by all items below it, parents first (order of the explicit-stack generator
`_iTreeIndepthTree.__iter__`, itree_indepth.py; that the stack machine computes this is proved in `Props/Deep`) (itree_indepth.py 559-577) -/
def pre : Tree → List Tree
  | node i t v f l ks => node i t v f l ks :: preL ks
/-- the same for a list of siblings (itree_indepth.py 559-577) -/
def preL : List Tree → List Tree
  | [] => []
  | k :: ks => pre k ++ preL ks
end

/-- `iter(t.deep)`: all items below `t` (itree_indepth.py 559-577) -/
def deep (t : Tree) : List Tree := preL t.kids

end Tree

/-- Snapshot of an item; the fuel only matters on cyclic heaps (where Python would not terminate). (no code: a view on the heap) -/
def Heap.snap : Nat → Heap → Id → Tree
  | 0, h, x => .node x (h.node x).tag (h.node x).value (h.node x).flags (h.node x).link []
  | n + 1, h, x => .node x (h.node x).tag (h.node x).value (h.node x).flags (h.node x).link
      ((h.node x).items.map (snap n h))

/-- the tree below `x` in the heap (no code: a view on the heap) -/
def Heap.tree (h : Heap) (x : Id) : Tree := h.snap h.next x

/-- `_value_equal` (itree_private.py 75-125) on the modelled values, where `==` always delivers a bool: same type and `==`. -/
def valueEqual (a b : Val) : Bool := a.ty == b.ty && Val.pyEq a b

/-- the pair (file path, target path) compared by `iTLink.__eq__` (itree_helpers.py 143-150); `get_init_args` builds links without
`link_item` (itree_main.py 3045-3046) -/
def linkArgs (t : Tree) : Option (Option String × List Tag) :=
  if t.flags.has Flags.linkRoot then (match t.link with | some l => some (l.file, l.path) | none => some (none, [])) else none

/-- `a1 == a2` for the argument lists of `get_init_args(None, False)` (itree_main.py 3016-3053) -/
def argsEq (a b : Tree) : Bool :=
  a.tag == b.tag && Val.pyEq a.value b.value && linkArgs a == linkArgs b && a.flags == b.flags

/-- comparison of one pair of deep items in `__eq__` (itree_main.py 2449-2460) -/
def pairEq (a b : Tree) : Bool := argsEq a b || valueEqual a.value b.value

/-- `__eq__` (itree_main.py 2431-2472) for two different objects -/
def Tree.pyEq (a b : Tree) : Bool :=
  a.tag == b.tag && a.kids.length == b.kids.length && valueEqual a.value b.value &&
    (a.deep.zip b.deep).all fun p => pairEq p.1 p.2

/-- `a == b` on items: identity first (itree_main.py 2443-2444) -/
def Heap.eqItem (h : Heap) (a b : Id) : Bool := a == b || (h.tree a).pyEq (h.tree b)

end ITree
