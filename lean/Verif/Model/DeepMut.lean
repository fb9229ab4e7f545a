import Verif.Model.Step
import Verif.Model.Getter
import Verif.Spec.Order
/-
Mutating in-depth calls: `t.deep.reverse()`, `t.deep.sort()`, `t.deep.remove()` and the in-depth flag calls (itree_indepth.py 84-227, 461-557).
-/
namespace ITree

/-- `for i in items: f(i)`; stops at the first exception (itree_indepth.py 461-557) -/
def forEach (f : Heap → Id → Res Unit) : Heap → List Id → Res Unit
  | h, [] => (h, .ok ())
  | h, x :: xs =>
    let r := f h x
    match r.2 with
    | .error e => (r.1, .error e)
    | .ok () => forEach f r.1 xs

/-- `deep.reverse` (itree_indepth.py 461-484).  The body after `if itree:` is that of `reverse`.  The first argument bounds the recursion depth (Python:
RecursionError). -/
def deepReverse : Nat → Heap → Id → Res Unit
  | 0, h, _ => (h, .error .recursion)
  | n + 1, h, p =>
    match guardReorder h p with
    | .error e => (h, .error e)
    | .ok false => (h, .ok ())
    | .ok true =>
      if (h.kids p).isEmpty then (h, .ok ()) else
      let r := reverse h p
      match r.2 with
      | .error e => (r.1, .error e)
      | .ok () => forEach (deepReverse n) r.1 (r.1.kids p)

/-- `deep.sort` (itree_indepth.py 486-523).  The key function sees the item as it is when its level is sorted. -/
def deepSort (key : Heap → Id → Int) (rev : Bool) : Nat → Heap → Id → Res Unit
  | 0, h, _ => (h, .error .recursion)
  | n + 1, h, p =>
    match guardReorder h p with
    | .error e => (h, .error e)
    | .ok false => (h, .ok ())
    | .ok true =>
      let r := sort h p (key h) rev
      match r.2 with
      | .error e => (r.1, .error e)
      | .ok () => forEach (deepSort key rev n) r.1 (r.1.kids p)

/-- `i.parent.remove(i)` (itree_indepth.py 545-557) -/
def removeFromParent (h : Heap) (x : Id) : Res Unit :=
  match h.par x with
  | none => (h, .error .attribute)
  | some q => Res.void (remove h q x)

/-- `for i in del_items: i.parent.remove(i)`; an element that is a list (key with a slice) has no `parent` (itree_indepth.py 545-557) -/
def removeElems : Heap → List Elem → Res Unit
  | h, [] => (h, .ok ())
  | h, .list _ :: _ => (h, .error .attribute)
  | h, .item x :: es =>
    let r := removeFromParent h x
    match r.2 with
    | .error e => (r.1, .error e)
    | .ok () => removeElems r.1 es

/-- `deep.remove` (itree_indepth.py 525-557); `parent.pop(x.idx)` is what `remove` does after checking the parent -/
def deepRemove (h : Heap) (p : Id) (t : Target) (ts : List Target) : Res GetOut :=
  match getPath h p t ts with
  | .error e => (h, .error e)
  | .ok (.one x) =>
    let r := removeFromParent h x
    match r.2 with
    | .error e => (r.1, .error e)
    | .ok () => (r.1, .ok (.one x))
  | .ok (.list es) =>
    let r := removeElems h es
    match r.2 with
    | .error e => (r.1, .error e)
    | .ok () => (r.1, .ok (.list es))

/-- the items of the loop of the in-depth flag calls (itree_indepth.py 121-134): all items below, or the matching ones – hierarchical
(`self.iter(filter_method)`) or not (`filter(filter_method, self)`).  The filter does not depend on flags set by the same call (the generators are lazy).  That
the generators deliver these lists is C26 and C28. -/
def flagTargets (h : Heap) (x : Id) (filter : Option (Id → Bool)) (hier : Bool) : List Id :=
  match filter with
  | none => x :: (h.tree x).deep.map Tree.id
  | some f => (if f x then [x] else []) ++ (if hier then Tree.preFL f (h.tree x).kids else ((h.tree x).deep.map Tree.id).filter f)

/-- the parent check of the in-depth flag calls (itree_indepth.py 118-120, 163-165, 208-210) -/
def parentReadOnly (h : Heap) (x : Id) : Bool :=
  match h.par x with
  | some p => (h.flags p).has Flags.readOnlyTree
  | none => false

/-- `deep.unset_tree_read_only` (itree_indepth.py 84-134) -/
def deepUnsetTreeReadOnly (h : Heap) (x : Id) (filter : Option (Id → Bool)) (hier : Bool) : Res Unit :=
  if parentReadOnly h x then (h, .error .permission)
  else forEach (fun h i => unsetFlagsOp h i Flags.readOnlyTree) h (flagTargets h x filter hier)

/-- `deep.unset_value_read_only` (itree_indepth.py 136-180) -/
def deepUnsetValueReadOnly (h : Heap) (x : Id) (filter : Option (Id → Bool)) (hier : Bool) : Res Unit :=
  if parentReadOnly h x then (h, .error .permission)
  else forEach (fun h i => unsetFlagsOp h i Flags.readOnlyValue) h (flagTargets h x filter hier)

/-- `deep.set_value_read_only` (itree_indepth.py 182-227) -/
def deepSetValueReadOnly (h : Heap) (x : Id) (filter : Option (Id → Bool)) (hier : Bool) : Res Unit :=
  if parentReadOnly h x then (h, .error .permission)
  else forEach (fun h i => setFlags1 h i Flags.readOnlyValue) h (flagTargets h x filter hier)

end ITree
