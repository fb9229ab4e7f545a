import Verif.Model.Query
/-
Models of the size comparisons and counters (itree_main.py 2482-2512, 2354-2367, 755-763), of `equal` (2514-2570) and of `force_cache_update` (549-572).
-/
namespace ITree

/-- `len(t)`: the number of children (itree_main.py 2350-2352, 76-80) -/
def lenOf (h : Heap) (p : Id) : Nat := (h.kids p).length
/-- `t < u` (itree_main.py 2482-2488) -/
def ltItem (h : Heap) (a b : Id) : Bool := decide (lenOf h a < lenOf h b)
/-- `t <= u` (itree_main.py 2490-2496) -/
def leItem (h : Heap) (a b : Id) : Bool := decide (lenOf h a ≤ lenOf h b)
/-- `t > u` (itree_main.py 2498-2504) -/
def gtItem (h : Heap) (a b : Id) : Bool := decide (lenOf h a > lenOf h b)
/-- `t >= u` (itree_main.py 2506-2512) -/
def geItem (h : Heap) (a b : Id) : Bool := decide (lenOf h a ≥ lenOf h b)
/-- `t.filtered_len(filter_method)` (itree_main.py 2354-2367); the filter is a total predicate -/
def childrenLen (h : Heap) (p : Id) (f : Id → Bool) : Nat := ((h.kids p).filter f).foldl (fun n _ => n + 1) 0
/-- `t.tag_number` (itree_main.py 755-763) -/
def tagNumber (h : Heap) (p : Id) : Nat := if h.kids p = [] then 0 else ((h.node p).fams.getD []).length

/-- the loop of `equal` over the pairs of in-depth items (itree_main.py 2549-2567), on the modelled values no comparison raises -/
def equalLoop (flagsToo : Bool) : List (Tree × Tree) → Bool
  | [] => true
  | (a, b) :: ps =>
    if flagsToo && a.flags != b.flags then false
    else if argsEq a b then equalLoop flagsToo ps
    else if valueEqual a.value b.value then equalLoop flagsToo ps
    else false

/-- `t.equal(u, check_flags=flagsToo)` (itree_main.py 2514-2570) with `check_coupled=False` (True: Model/Coupled) -/
def equalItem (h : Heap) (a b : Id) (flagsToo : Bool) : Bool :=
  if a = b then true
  else if flagsToo && h.flags a != h.flags b then false
  else if (h.tree a).tag != (h.tree b).tag || (h.tree a).kids.length != (h.tree b).kids.length || !valueEqual (h.tree a).value (h.tree b).value then false
  else equalLoop flagsToo ((h.tree a).deep.zip (h.tree b).deep)

/-- `list(item._itree_prt_idx.__setitem__(c, i) for i, item in enumerate(l))` (itree_main.py 566, 569, 572) -/
def writePos (c : Cache) (h : Heap) : List Id → Nat → Res Unit
  | [], _ => (h, .ok ())
  | y :: ys, i =>
    match (h.node y).parent with
    | none => (h, .error .attribute)
    | some r => if r.frozen then (h, .error .attribute) else writePos c (h.setParent y (some (r.setC c i))) ys (i + 1)

/-- `for family in families.values(): …` (itree_main.py 571-572) -/
def writeFams (h : Heap) : Fams → Res Unit
  | [] => (h, .ok ())
  | e :: F =>
    let r := writePos .fam h e.2 0
    match r.2 with
    | .error x => (r.1, .error x)
    | .ok () => writeFams r.1 F

/-- `x.force_cache_update(idx, fam_keys, all_keys)` (itree_main.py 549-572); with `all_keys=False` the family is looked up in the item itself instead of its parent (568) -/
def forceCache (h : Heap) (x : Id) (idx famKeys allKeys : Bool) : Res Unit :=
  match (h.node x).parent with
  | none => (h, .ok ())
  | some r =>
    let s := if idx then writePos .abs h (h.kids r.pid) 0 else (h, .ok ())
    match s.2 with
    | .error e => (s.1, .error e)
    | .ok () =>
      if famKeys && !allKeys then
        match s.1.boundFams x with
        | none => (s.1, .error .attribute)
        | some F => match F.get? (s.1.tag x) with
          | none => (s.1, .error .key)
          | some l => writePos .fam s.1 l 0
      else if allKeys then
        match (s.1.node r.pid).fams with
        | none => (s.1, .error .attribute)
        | some F => writeFams s.1 F
      else (s.1, .ok ())

end ITree
