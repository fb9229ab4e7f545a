import Verif.Model.DeepMut
/-
The in-depth flag calls with a filter that looks at the items while they are being changed (itree_indepth.py 84-227): the iterators are lazy, so the filter is asked about an item when the flags of the items
before it are already written.  The tree given is the one at the start of the call; flag calls do not change it.
-/
namespace ITree

mutual
/-- the loop `for i in iterator: op(i)` at one item: `iterator` is `self.iter(filter_method)` (hierarchical) or `filter(filter_method, self)` (itree_indepth.py 121-133, 168-180, 215-227; itree_indepth_iter.py 33-65) -/
def walkT (op : Heap → Id → Res Unit) (F : Heap → Id → Bool) (hier : Bool) : Heap → Tree → Res Unit
  | h, .node i _ _ _ _ ks =>
    if F h i then
      let r := op h i
      match r.2 with
      | .error e => (r.1, .error e)
      | .ok () => walkL op F hier r.1 ks
    else if hier then (h, .ok ())
    else walkL op F hier h ks
/-- … at the items of a list one after the other (itree_indepth.py 132-133, itree_indepth_iter.py 50-57) -/
def walkL (op : Heap → Id → Res Unit) (F : Heap → Id → Bool) (hier : Bool) : Heap → List Tree → Res Unit
  | h, [] => (h, .ok ())
  | h, k :: ks =>
    let r := walkT op F hier h k
    match r.2 with
    | .error e => (r.1, .error e)
    | .ok () => walkL op F hier r.1 ks
end

/-- the three calls with a filter: the item itself first, then everything below it, whether the item itself matches or not (itree_indepth.py 121-133, 168-180, 215-227) -/
def flagsLive (op : Heap → Id → Res Unit) (F : Heap → Id → Bool) (hier : Bool) (h : Heap) (x : Id) : Res Unit :=
  if parentReadOnly h x then (h, .error .permission)
  else
    let r := if F h x then op h x else (h, .ok ())
    match r.2 with
    | .error e => (r.1, .error e)
    | .ok () => walkL op F hier r.1 (h.tree x).kids

/-- `deep.set_value_read_only(filter_method, hierarchical)` (itree_indepth.py 182-227) -/
def liveSetValueReadOnly (h : Heap) (x : Id) (F : Heap → Id → Bool) (hier : Bool) : Res Unit := flagsLive (fun h i => setFlags1 h i Flags.readOnlyValue) F hier h x
/-- `deep.unset_value_read_only(filter_method, hierarchical)` (itree_indepth.py 135-180) -/
def liveUnsetValueReadOnly (h : Heap) (x : Id) (F : Heap → Id → Bool) (hier : Bool) : Res Unit := flagsLive (fun h i => unsetFlagsOp h i Flags.readOnlyValue) F hier h x
/-- `deep.unset_tree_read_only(filter_method, hierarchical)` (itree_indepth.py 84-133) -/
def liveUnsetTreeReadOnly (h : Heap) (x : Id) (F : Heap → Id → Bool) (hier : Bool) : Res Unit := flagsLive (fun h i => unsetFlagsOp h i Flags.readOnlyTree) F hier h x

end ITree
