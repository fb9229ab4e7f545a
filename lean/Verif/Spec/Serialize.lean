import Verif.Spec.Init
import Verif.Spec.PyJson
import Verif.Model.Serialize
/-
Specification: what a dumped tree looks like after loading.
-/
namespace ITree

open Json (J PV Env SErr Supported)

mutual
/-- The loaded form of a tree: everything as it was, except that the constructor pushes the flags read-only-tree and load-links of every item into everything below it. -/
def Shape.loaded : Shape → Shape
  | .node t v f _ ks => .node t v f none (Shape.orL (f &&& Flags.deepMask) (Shape.loadedL ks))
def Shape.loadedL : List Shape → List Shape
  | [] => []
  | k :: ks => Shape.loaded k :: Shape.loadedL ks
end

mutual
/-- The form of a tree after dump and load: everything as it was – a link root keeps file and path of its link, which is not loaded –, except that the constructor pushes the flags read-only-tree and load-links of every
item into everything below it.  (An item that is no link root has no link afterwards.) -/
def Shape.restored : Shape → Shape
  | .node t v f l ks => .node t v f (if f.has Flags.linkRoot then l.map fun l => { file := l.file, path := l.path } else none) (Shape.orL (f &&& Flags.deepMask) (Shape.restoredL ks))
def Shape.restoredL : List Shape → List Shape
  | [] => []
  | k :: ks => Shape.restored k :: Shape.restoredL ks
end

mutual
/-- every item carries at least the flags `g`, and the deep flags (read-only-tree, load-links) of its parent; only link roots have links, and these are not loaded -/
def Shape.closed (g : Flags) : Shape → Prop
  | .node _ _ f l ks => f ||| g = f ∧ (if f.has Flags.linkRoot then l.map (fun l => { file := l.file, path := l.path }) else none) = l ∧ Shape.closedL (f &&& Flags.deepMask) ks
def Shape.closedL (g : Flags) : List Shape → Prop
  | [] => True
  | k :: ks => Shape.closed g k ∧ Shape.closedL g ks
end

mutual
/-- all tags, values and links of the tree are supported by the serializer; link roots have a link and not the flag LOAD_LINKS -/
def Shape.supported (N : Names) (E : Env) : Shape → Prop
  | .node t v f l ks => Supported E (N.tagPV t) ∧ Supported E (N.valPV v) ∧
      (f.has Flags.linkRoot = true → f.has Flags.loadLinks = false ∧ ∃ lk, l = some lk ∧ Supported E (linkPV N lk)) ∧ Shape.supportedL N E ks
def Shape.supportedL (N : Names) (E : Env) : List Shape → Prop
  | [] => True
  | k :: ks => Shape.supported N E k ∧ Shape.supportedL N E ks
end

mutual
/-- no item is a link root -/
def Shape.noLinks : Shape → Prop
  | .node _ _ f _ ks => f.has Flags.linkRoot = false ∧ Shape.noLinksL ks
def Shape.noLinksL : List Shape → Prop
  | [] => True
  | k :: ks => Shape.noLinks k ∧ Shape.noLinksL ks
end

def Shape.kids : Shape → List Shape | .node _ _ _ _ ks => ks

end ITree
