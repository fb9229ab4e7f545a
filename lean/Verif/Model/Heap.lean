import Verif.Base.Py
import Verif.Base.Tag
/-
Heap model of `iTree` objects: the slots of an object (itree_main.py 73-86) and the primitive heap operations.
-/
namespace ITree

/-- object identity of an `iTree`: a number -/
scoped notation "Id" => Nat

/-- `_flags`: six bits, itree_helpers.py 271-290 (`iTFLAG`, `_iTFLAG`, `FLAG_MASK = 0b111111`). -/
abbrev Flags := BitVec 6

namespace Flags
/-- itree_helpers.py 275 -/
def readOnlyTree : Flags := 0b000001#6
/-- itree_helpers.py 276 -/
def readOnlyValue : Flags := 0b000010#6
/-- itree_helpers.py 277 -/
def loadLinks : Flags := 0b000100#6
/-- itree_helpers.py 285 -/
def linked : Flags := 0b001000#6
/-- itree_helpers.py 286 -/
def placeholder : Flags := 0b010000#6
/-- itree_helpers.py 287 -/
def linkRoot : Flags := 0b100000#6
/-- `_IS_TREE_PROTECTED`, itree_main.py 102 -/
def treeProtected : Flags := readOnlyTree ||| placeholder ||| linked ||| linkRoot
/-- `_IS_VALUE_PROTECTED`, itree_main.py 103 -/
def valueProtected : Flags := readOnlyValue ||| placeholder ||| linked
/-- `_DEEP_FLAG_MASK`, itree_main.py 104 -/
def deepMask : Flags := loadLinks ||| readOnlyTree
/-- `flags & mask` used as a Python truth value (itree_helpers.py 271-288) -/
def has (f mask : Flags) : Bool := (f &&& mask) != 0#6
end Flags

/-- `_itree_prt_idx`: `[parent, absolute-index cache, family-index cache]` (itree_main.py 279-287).  The caches are plain Python ints and
may hold anything.  `frozen` is true when the code stored a tuple instead of a list (itree_main.py 1597). -/
structure PRef where
  pid : Id
  absC : Int
  famC : Int
  frozen : Bool := false
  deriving DecidableEq, Repr, Inhabited

/-- a Python dict tag → family list, in insertion order (itree_main.py 73-90) -/
abbrev Fams := List (Tag × List Id)

namespace Fams
/-- `families.get(tag)` (itree_main.py 284-298) -/
def get? (F : Fams) (t : Tag) : Option (List Id) := F.lookup t
/-- `families[tag] = l` (keeps the dict position of an existing key) (itree_main.py 284-298) -/
def set : Fams → Tag → List Id → Fams
  | [], t, l => [(t, l)]
  | (t', l') :: r, t, l => if t' = t then (t', l) :: r else (t', l') :: set r t l
/-- `del families[tag]` (itree_main.py 1865-1893) -/
def del (F : Fams) (t : Tag) : Fams := F.filter (fun e => e.1 ≠ t)
end Fams

/-- The `iTLink` object of an item (itree_helpers.py 116-141), without time stamp: `loaded` is
`_loaded is not None`, `cover` is `_link_item`, `path` is the target path (a single string as a list of one), `crc` is `_file_crc`. -/
structure LinkSt where
  file : Option String := none
  path : List Tag := []
  loaded : Bool := false
  tags : List Tag := []
  keys : List (Tag × Nat) := []
  cover : Option Id := none
  crc : Option Nat := none
  deriving DecidableEq, Repr, Inhabited

/-- The state of one `iTree` object.  `fams = none` means the attribute `_families` was never assigned.
`stale` is the dict still bound in the quick access methods `_getitem_fam`/`_get_fam`/`_setitem_fam` when it is no longer the dict in
`_families` (only `clear()` leaves that situation behind, itree_main.py 1969-1974). -/
structure Node where
  tag : Tag
  value : Val := .noValue
  flags : Flags := 0#6
  parent : Option PRef := none
  items : List Id := []
  fams : Option Fams := none
  stale : Option Fams := none
  link : Option LinkSt := none
  deriving Inhabited

/-- The heap: every identity below `next` is an allocated object. (no code: the Python heap restricted to the objects of itree_main.py 73-90) -/
structure Heap where
  node : Id → Node
  next : Id

namespace Heap

/-- the heap without any object (no code) -/
def empty : Heap := ⟨fun _ => default, 0⟩

/-- assign to slots of one object (itree_main.py 73-90) -/
def modify (h : Heap) (i : Id) (f : Node → Node) : Heap :=
  { h with node := fun j => if j = i then f (h.node j) else h.node j }

/-- create an object (itree_main.py 260-298) -/
def alloc (h : Heap) (n : Node) : Heap × Id :=
  ({ node := fun j => if j = h.next then n else h.node j, next := h.next + 1 }, h.next)

/-- `iter(p)`: the children (`_items`) (itree_main.py 73-90) -/
def kids (h : Heap) (p : Id) : List Id := (h.node p).items
/-- `p._tag` (itree_main.py 374-390) -/
def tag (h : Heap) (p : Id) : Tag := (h.node p).tag
/-- `p._flags` (itree_main.py 784-796) -/
def flags (h : Heap) (p : Id) : Flags := (h.node p).flags
/-- `p.parent` (itree_main.py 315-324) -/
def par (h : Heap) (p : Id) : Option Id := (h.node p).parent.map (·.pid)
/-- the dict bound in `_getitem_fam`, `_get_fam` (itree_main.py 284-298) -/
def boundFams (h : Heap) (p : Id) : Option Fams := ((h.node p).stale).or (h.node p).fams

/-- set `x._itree_prt_idx` (itree_main.py 73-90) -/
def setParent (h : Heap) (x : Id) (r : Option PRef) : Heap := h.modify x fun n => { n with parent := r }
/-- assign to `p._items` (itree_main.py 73-90) -/
def setItems (h : Heap) (p : Id) (l : List Id) : Heap := h.modify p fun n => { n with items := l }
/-- assign to `p._families` or mutate the dict in it (bound dict and attribute are the same object) (itree_main.py 73-90) -/
def setFams (h : Heap) (p : Id) (F : Fams) : Heap := h.modify p fun n => { n with fams := some F }

/-- `p.is_link_root` (itree_main.py 3216-3225) -/
def isLinkRoot (h : Heap) (p : Id) : Bool := (h.flags p).has Flags.linkRoot
/-- `_flags & _IS_TREE_PROTECTED` (itree_main.py 102) -/
def isProtected (h : Heap) (p : Id) : Bool := (h.flags p).has Flags.treeProtected
/-- `p._link.is_loaded` (itree_helpers.py 208-210); a link root always has `_link` -/
def linkLoaded (h : Heap) (p : Id) : Bool := match (h.node p).link with | some l => l.loaded | none => false
/-- `p._link._tags` (itree_helpers.py 245-250) -/
def linkTags (h : Heap) (p : Id) : List Tag := match (h.node p).link with | some l => l.tags | none => []

end Heap

/-- result of a call: the heap afterwards (also when an exception is raised) and the return value or exception (no code: what a call leaves) -/
abbrev Res (α : Type) := Heap × Except Err α

/-- an argument that may be an `iTree` object or any other Python object (itree_main.py 1147-1220) -/
inductive Arg where
  | item (i : Id)
  | val (v : Val)
  deriving Inhabited

end ITree
