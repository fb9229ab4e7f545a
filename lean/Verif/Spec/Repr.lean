import Verif.Model.Repr
import Verif.Spec.Serialize
import Verif.Spec.Order
/-
Specification: when the printed forms of tags, values and links can be evaluated back.
-/
namespace ITree

/-- For the tags in `okTag`, the values in `okVal` and the links in `okLink` the printed form evaluates to the object again, wherever the text goes on with a comma or a closing bracket; the printed form of a
tag cannot be taken for a keyword argument or the end of the argument list. -/
structure Literals.Evaluable (L : Literals) (okTag : Tag → Prop) (okVal : Val → Prop) (okLink : Option String → List Tag → Prop) : Prop where
  tag_back : ∀ t, okTag t → ∀ c r, (c = ',' ∨ c = ')') → L.tagEval (L.tagRepr t ++ c :: r) = some (t, c :: r)
  val_back : ∀ v, okVal v → ∀ c r, (c = ',' ∨ c = ')') → L.valEval (L.valRepr v ++ c :: r) = some (v, c :: r)
  link_back : ∀ a p, okLink a p → ∀ r, L.linkEval (L.linkRepr a p ++ ')' :: r) = some ((a, p), ')' :: r)
  tag_plain : ∀ t, okTag t → ∀ k ∈ ["value=".toList, "subtree=".toList, "link=".toList, "flags=".toList, [')']], ∀ r, ¬ k <+: L.tagRepr t ++ r
  tag_comma : ∀ t, okTag t → L.tagRepr t ≠ [',']
  val_comma : ∀ v, okVal v → L.valRepr v ≠ [',']

mutual
/-- the shape with the arguments of the links only -/
def Shape.bare : Shape → Shape
  | .node t v f l ks => .node t v f (l.map fun l => { file := l.file, path := l.path }) (Shape.bareL ks)
def Shape.bareL : List Shape → List Shape
  | [] => []
  | k :: ks => k.bare :: Shape.bareL ks
end

mutual
/-- arguments of constructor calls that load no link: links are given as file and path, to items with the flag LINK_ROOT and without LOAD_LINKS -/
def Shape.Quiet : Shape → Prop
  | .node _ _ f l ks => (∀ lk, l = some lk → lk = { file := lk.file, path := lk.path } ∧ f.has Flags.linkRoot = true ∧ f.has Flags.loadLinks = false) ∧ Shape.QuietL ks
def Shape.QuietL : List Shape → Prop
  | [] => True
  | k :: ks => k.Quiet ∧ Shape.QuietL ks
end

end ITree
