import Verif.Model.Tree
/-
`idx`, `tag_idx` and the cached positions (itree_main.py 392-519).
-/
namespace ITree

/-- which cache slot of `_itree_prt_idx` is used: `[1]` (absolute) or `[2]` (family) (itree_main.py 393-519) -/
inductive Cache where
  | abs | fam
  deriving DecidableEq

/-- read a cache slot (itree_main.py 393-519) -/
def PRef.getC (r : PRef) : Cache → Int | .abs => r.absC | .fam => r.famC
/-- write a cache slot (itree_main.py 393-519) -/
def PRef.setC (r : PRef) : Cache → Int → PRef
  | .abs, i => { r with absC := i }
  | .fam, i => { r with famC := i }

/-- full scan from the start; every visited sibling gets its cache refreshed (itree_main.py 426-433 resp. 504-511).
`item._itree_prt_idx.__setitem__` raises AttributeError on None and on a tuple. -/
def scanFwd (c : Cache) (h : Heap) (x : Id) : List Id → Nat → Res Nat
  | [], _ => (h, .error .index)
  | y :: ys, i =>
    match (h.node y).parent with
    | none => (h, .error .attribute)
    | some r =>
      if r.frozen then (h, .error .attribute) else
      let h' := h.setParent y (some (r.setC c i))
      if y = x then (h', .ok i) else scanFwd c h' x ys (i + 1)

/-- full scan from the end, the list is given reversed (itree_main.py 435-441 resp. 513-519) -/
def scanBwd (c : Cache) (h : Heap) (x : Id) : List Id → Nat → Res Nat
  | [], _ => (h, .error .index)
  | y :: ys, i =>
    match (h.node y).parent with
    | none => (h, .error .attribute)
    | some r =>
      if r.frozen then (h, .error .attribute) else
      let h' := h.setParent y (some (r.setC c i))
      if y = x then (h', .ok i) else scanBwd c h' x ys (i - 1)

/-- search `x` in `l[start:limit]` (itree_main.py 421-424 resp. 497-500) -/
def windowFind (l : List Id) (x : Id) (start limit : Nat) : Option Nat :=
  (List.range' start (limit - start)).find? fun i => l[i]? == some x

/-- Position of `x` in `l` using the cache slot `c` of its parent reference `r`.
Result: the position and whether it was found by a full scan (itree_main.py 407-441 with `l = parent._items`, 480-519 with
`l` the family list; the constants are the same). -/
def cachedPos (c : Cache) (h : Heap) (x : Id) (r : PRef) (l : List Id) : Res (Int × Bool) :=
  let size := l.length
  let k := r.getC c
  let slow : Res (Int × Bool) :=
    let limit := (min (size : Int) (k + 20 + 1)).toNat
    let start := (max 0 (k - 20)).toNat
    match windowFind l x start limit with
    | some i =>
      if r.frozen then (h, .error .type)      -- tuple does not support item assignment
      else (h.setParent x (some (r.setC c i)), .ok (i, false))
    | none =>
      let res := if 2 * k < size then scanFwd c h x l 0 else scanBwd c h x l.reverse (size - 1)
      (res.1, match res.2 with | .ok i => .ok ((i : Int), true) | .error e => .error e)
  if k < size then
    match pyGet l k with
    | none => (h, .error .index)
    | some y => if y = x then (h, .ok (k, false)) else slow
  else slow

/-- `x.idx` (itree_main.py 392-441); `none` for an item without parent -/
def Heap.idx (h : Heap) (x : Id) : Res (Option Int) :=
  match (h.node x).parent with
  | none => (h, .ok none)
  | some r =>
    let res := cachedPos .abs h x r (h.kids r.pid)
    (res.1, match res.2 with | .ok p => .ok (some p.1) | .error e => .error e)

/-- the three kinds of results of `tag_idx`: None, a tuple `(tag, i)`, or – in the full-scan branches – a bare int (itree_main.py 470-519) -/
inductive TagIdx where
  | none
  | pair (t : Tag) (i : Int)
  | bare (i : Int)
  deriving DecidableEq, Repr

/-- `x.tag_idx` (itree_main.py 469-519): the full scans `return i` instead of `return tag, i` (lines 509, 518) -/
def Heap.tagIdx (h : Heap) (x : Id) : Res TagIdx :=
  match (h.node x).parent with
  | none => (h, .ok .none)
  | some r =>
    match h.boundFams r.pid with
    | none => (h, .error .attribute)
    | some F =>
      match F.get? (h.tag x) with
      | none => (h, .error .key)
      | some l =>
        let res := cachedPos .fam h x r l
        (res.1, match res.2 with
          | .ok (i, false) => .ok (.pair (h.tag x) i)
          | .ok (i, true) => .ok (.bare i)
          | .error e => .error e)

end ITree
