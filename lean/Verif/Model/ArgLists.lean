import Verif.Model.Repr
/-
Model of `extend(items)` and `iTree(tag, value, subtree, None, flags)` when the items are Python lists: such a list is not a value, it holds the arguments of a constructor call
(`itree_class(*item) if type(item) is list`, itree_private.py 286 and 307), e.g. the lists delivered by `get_init_args`.
A nested argument list `[tag, value, [argument lists], link, flags]` is given as a `Shape`.
Simplifications: all items of the call are such lists (mixtures with items and values, and items inside the lists, are not modelled); the new items are created before the first one is added –
only their identity numbers depend on it; lists that are no valid constructor arguments are not modelled.
-/
namespace ITree

/-- `t.extend([args, args, …])` (itree_main.py 1385-1425, itree_private.py 224-321) -/
def extendLists (h : Heap) (p : Id) (ds : List Shape) : Res Unit :=
  match guardExtend h p [] with
  | some e => (h, .error e)
  | none => extend (rebuildL h ds).1 p ((rebuildL h ds).2.map Arg.item)

/-- `iTree(tag, value, [args, args, …], None, flags)` (itree_main.py 260-298, itree_private.py 276-299) -/
def newFromLists (h : Heap) (t : Tag) (v : Val) (ds : List Shape) (f : Flags) : Heap × Id := rebuild h (.node t v f none ds)

end ITree
