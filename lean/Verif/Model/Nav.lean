import Verif.Model.Step
/-
Navigation: ancestors, level, index paths, neighbours (itree_main.py 326-371, 443-467, 521-638) and the item getters by index and key
(itree_getitem.py 541-577, 679-721).

The upward loops `while p is not None: …; p = p.parent` are run with `h.next` as bound on the number of rounds; `Props/Paths` proves that in all
covered states the loops end before the bound.
-/
namespace ITree

/-- the loop of `ancestors` (itree_main.py 326-342): nearest first -/
def ancestorsUp : Nat → Heap → Id → List Id
  | 0, _, _ => []
  | n + 1, h, x => match h.par x with | none => [] | some p => p :: ancestorsUp n h p

/-- `ancestors` (itree_main.py 326-342), root first. The loop condition `p != None` uses `__ne__`/`__eq__` of items, which is True for None
(itree_main.py 2431-2442 delivers False for objects that are no items). -/
def Heap.ancestors (h : Heap) (x : Id) : List Id := (ancestorsUp h.next h x).reverse

/-- the loop of `level` (itree_main.py 621-638) -/
def levelAux : Nat → Heap → Id → Nat
  | 0, _, _ => 0
  | n + 1, h, x => match h.par x with | none => 0 | some p => 1 + levelAux n h p

/-- `level` (itree_main.py 621-638) -/
def Heap.level (h : Heap) (x : Id) : Nat := levelAux h.next h x

/-- the loop of `idx_path` (itree_main.py 443-467): `appendleft(root.idx)` on the way up -/
def idxPathAux : Nat → Heap → Id → List Int → Res (List Int)
  | 0, h, _, acc => (h, .ok acc)
  | n + 1, h, x, acc =>
    match h.par x with
    | none => (h, .ok acc)
    | some p =>
      let r := h.idx x
      match r.2 with
      | .error e => (r.1, .error e)
      | .ok none => (r.1, .error .type)
      | .ok (some i) => idxPathAux n r.1 p (i :: acc)

/-- `idx_path` (itree_main.py 443-467) -/
def Heap.idxPath (h : Heap) (x : Id) : Res (List Int) := idxPathAux h.next h x []

/-- the loop of `tag_idx_path` (itree_main.py 521-547) -/
def tagIdxPathAux : Nat → Heap → Id → List TagIdx → Res (List TagIdx)
  | 0, h, _, acc => (h, .ok acc)
  | n + 1, h, x, acc =>
    match h.par x with
    | none => (h, .ok acc)
    | some p =>
      let r := h.tagIdx x
      match r.2 with
      | .error e => (r.1, .error e)
      | .ok i => tagIdxPathAux n r.1 p (i :: acc)

/-- `tag_idx_path` (itree_main.py 521-547) -/
def Heap.tagIdxPath (h : Heap) (x : Id) : Res (List TagIdx) := tagIdxPathAux h.next h x []

/-- `pre_item` (itree_main.py 575-588) -/
def Heap.preItem (h : Heap) (x : Id) : Res (Option Id) :=
  match h.par x with
  | none => (h, .ok none)
  | some p =>
    let r := h.idx x
    match r.2 with
    | .error e => (r.1, .error e)
    | .ok none => (r.1, .error .type)
    | .ok (some i) => if i - 1 < 0 then (r.1, .ok none) else
      match pyGet (r.1.kids p) (i - 1) with | some y => (r.1, .ok (some y)) | none => (r.1, .error .index)

/-- `post_item` (itree_main.py 590-604) -/
def Heap.postItem (h : Heap) (x : Id) : Res (Option Id) :=
  match h.par x with
  | none => (h, .ok none)
  | some p =>
    let r := h.idx x
    match r.2 with
    | .error e => (r.1, .error e)
    | .ok none => (r.1, .error .type)
    | .ok (some i) => if i + 1 < (r.1.kids p).length then
      match pyGet (r.1.kids p) (i + 1) with | some y => (r.1, .ok (some y)) | none => (r.1, .error .index)
      else (r.1, .ok none)

/-- `siblings` (itree_main.py 606-619) -/
def Heap.siblings (h : Heap) (x : Id) : List Id :=
  match h.par x with
  | none => []
  | some p => (h.kids p).filter fun y => y ≠ x

/-- `get.by_idx(idx, *idx_path)` (itree_getitem.py 541-577), default not given; `l[i]` of an empty children list is an IndexError too -/
def byIdx (h : Heap) (p : Id) : List Int → Except Err Id
  | [] => .ok p
  | i :: is => match pyGet (h.kids p) i with
    | some c => byIdx h c is
    | none => .error .index

/-- `get.by_tag_idx(tag_idx, *tag_idx_path)` (itree_getitem.py 679-721), default not given -/
def byTagIdx (h : Heap) (p : Id) : List (Tag × Int) → Except Err Id
  | [] => .ok p
  | (t, i) :: is => match ((h.boundFams p).getD []).get? t with
    | none => .error .key
    | some fam => match pyGet fam i with
      | some c => byTagIdx h c is
      | none => .error .index

end ITree
