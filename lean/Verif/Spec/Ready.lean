import Verif.Spec.Nested
import Verif.Spec.Numbered
import Verif.Spec.Rep
/-
Link roots that can be loaded in any order: some of them may be loaded before, some may be needed for more than one other.
-/
namespace ITree

/-- the trees `Ts` show the items `cs` one after the other -/
def ShowsAll (h : Heap) (cs : List Id) (Ts : List Tree) : Prop := Ts.length = cs.length ∧ ∀ (i : Nat) c T, cs[i]? = some c → Ts[i]? = some T → ShowsItem h c T

/-- The link root `p` with the link `lk` was loaded from `s`, and there is nothing new to load: the keys stored in the link are the keys of the children of `s`, and the children of `p` are linked items that show the
children of `s`. -/
def UpToDate (h : Heap) (p s : Id) (lk : LinkSt) : Prop :=
  lk.loaded = true ∧ dropRoot (h.tag (h.root p)) lk.path = lk.path ∧ lk.keys = (numbered h s).map Prod.fst ∧
    ∃ Ts : List Tree, h.kids p = Ts.map Tree.id ∧ (∀ T ∈ Ts, Rep h T ∧ ∀ i ∈ T.ids, (h.flags i).has Flags.linked = true) ∧ ShowsAll h (h.kids s) Ts

/-- The link root `p` is ready to be loaded, or is loaded already, and the same holds for all link roots it needs; none of the items `X` is needed.  Its link into the own tree leads, through items that are no link roots,
to an item `s` that is none; `p` and the children of `s` are no linked items; and every child of `s` that is a link root is ready in the same way.  Either `p` was not loaded and has no children, or it is up to date.
The number bounds how deep link roots are nested.  Different link roots may need the same. -/
inductive CanLoad (h : Heap) (X : Id → Prop) : Nat → Id → Prop
  | mk {m : Nat} {p s : Id} {lk : LinkSt} : ¬ X p → p < h.next → h.isLinkRoot p = true → (h.flags p).has Flags.linked = false → (h.node p).link = some lk → lk.OwnTree →
      dropRoot (h.tag (h.root p)) (dropRoot (h.tag (h.root p)) lk.path) = dropRoot (h.tag (h.root p)) lk.path →
      LeadsVia h (h.root p) (dropRoot (h.tag (h.root p)) lk.path) s → h.isLinkRoot s = false → (∀ c ∈ h.kids s, (h.flags c).has Flags.linked = false) →
      (∀ c ∈ h.kids s, h.isLinkRoot c = true → CanLoad h X m c) → ((lk.loaded = false ∧ h.kids p = []) ∨ UpToDate h p s lk) → CanLoad h X (m + 1) p

/-- the link root `i` was not loaded yet, and is no linked item -/
def Waiting (h : Heap) (i : Id) : Prop := h.isLinkRoot i = true ∧ (h.flags i).has Flags.linked = false ∧ h.kids i = [] ∧ ∃ lk, (h.node i).link = some lk ∧ lk.loaded = false

end ITree
