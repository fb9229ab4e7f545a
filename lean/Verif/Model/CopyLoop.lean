import Verif.Model.Deep
/-
The loop of `_iter_copy` (itree_private.py 556-593) as a step machine.
-/
namespace ITree

/-- an entry of the list `iterators`: the rest of an item iterator or `NONE_TUPLE` (the tuple `(None,)`, itree_helpers.py) (itree_private.py 556-591) -/
inductive CFr where
  | it (l : List Id)
  | none

/-- The local state of the loop: the heap, `items` and `iterators` (the last element of the Python list is the head here). (itree_private.py 556-591) -/
structure CopySt where
  heap : Heap
  items : List Id
  its : List CFr

/-- one fresh object made from `get_copy_args(item)` (itree_private.py 453-540) -/
def cloneOne (h : Heap) (x : Id) : Heap × Id := h.alloc (copyNode (h.snap 0 x))

/-- One round of the loops itree_private.py 578-592. `if item:` is the truth value of an item: it has children. `items[-1]` on an empty list is an
IndexError. -/
def copyLoopStep (s : CopySt) : GStep CopySt Unit :=
  match s.its with
  | [] => .done
  | .it [] :: st => .more [] { s with its := st }
  | .none :: st => match s.items with
    | [] => .fail .index
    | _ :: items => .more [] { s with items := items, its := st }
  | .it (x :: xs) :: st => match s.items with
    | [] => .fail .index
    | p :: items =>
      let r := cloneOne s.heap x
      let h := appendItem r.1 p r.2
      if s.heap.kids x = [] then .more [] ⟨h, p :: items, .it xs :: st⟩
      else .more [] ⟨h, r.2 :: p :: items, .it (s.heap.kids x) :: .none :: .it xs :: st⟩

/-- `_iter_copy(itree_item, get_copy_args)` (itree_private.py 556-593): heap and new item; at most `n` rounds -/
def iterCopy (n : Nat) (h : Heap) (x : Id) : Option (Except Err (Heap × Id)) :=
  let r := cloneOne h x
  if h.kids x = [] then some (.ok r) else
  (gen copyLoopStep n ⟨r.1, [r.2], [.it (h.kids x)]⟩).map fun o =>
    match o.2 with
    | .ok s => .ok (s.heap, r.2)
    | .error e => .error e

end ITree
