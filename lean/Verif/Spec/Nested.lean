import Verif.Spec.Circle
import Verif.Spec.LoadLinks
/-
Links to items that contain link roots themselves.
-/
namespace ITree

/-- the link of `p` (a link into the own tree) leads to `s` -/
def Source (h : Heap) (p s : Id) : Prop := ∃ lk, (h.node p).link = some lk ∧ LeadsTo h (h.root p) (dropRoot (h.tag (h.root p)) lk.path) s

/-- The link root `p` is ready to be loaded, with everything that is loaded on the way: it has no children, its link into the own tree is not loaded yet (or loading is forced) and leads, through items that are no link
roots, to an item `s` that is none; no child of `s` is linked, and every child of `s` that is a link root is ready in the same way.  `D` are the link roots that are going to be loaded; no one is needed for itself or
twice.  The number bounds how deep link roots are nested.  (Such a definition by cases is well-founded: circles are excluded, for them see `Circular`.) -/
inductive Nested (h : Heap) (force : Bool) : Nat → Id → (Id → Prop) → Prop
  | mk {m : Nat} {p s : Id} {lk : LinkSt} {D : Id → Prop} (Ds : Id → Id → Prop) : p < h.next → h.isLinkRoot p = true → h.kids p = [] → (h.node p).link = some lk → lk.OwnTree → (force = true ∨ lk.loaded = false) →
      LeadsVia h (h.root p) (dropRoot (h.tag (h.root p)) lk.path) s → h.isLinkRoot s = false → (∀ c ∈ h.kids s, (h.flags c).has Flags.linked = false) →
      (∀ c ∈ h.kids s, h.isLinkRoot c = true → Nested h force m c (Ds c)) → (∀ c ∈ h.kids s, h.isLinkRoot c = true → ¬ Ds c p) →
      (∀ c ∈ h.kids s, ∀ c' ∈ h.kids s, h.isLinkRoot c = true → h.isLinkRoot c' = true → c ≠ c' → ∀ i, Ds c i → ¬ Ds c' i) →
      (∀ i, D i ↔ i = p ∨ ∃ c ∈ h.kids s, h.isLinkRoot c = true ∧ Ds c i) → Nested h force (m + 1) p D

/-- only the children and the links of the items `X` change -/
structure LoadsOnly (X : Id → Prop) (h h' : Heap) : Prop where
  next : h.next ≤ h'.next
  tag : ∀ i, i < h.next → h'.tag i = h.tag i
  value : ∀ i, i < h.next → (h'.node i).value = (h.node i).value
  flags : ∀ i, i < h.next → h'.flags i = h.flags i
  par : ∀ i, i < h.next → h'.par i = h.par i
  kids : ∀ i, i < h.next → ¬ X i → h'.kids i = h.kids i
  link : ∀ i, i < h.next → ¬ X i → (h'.node i).link = (h.node i).link

/-- The tree `T` shows the item `c`: it is marked as linked and has the tag and the value of `c`.  If no link root is found below `c`, its items have in deep order the tags, values and flags of the items below `c`,
marked as linked; if `c` is a link root, its children show the children of the target of this link. -/
inductive ShowsItem (h : Heap) : Id → Tree → Prop
  | item {c : Id} {T : Tree} : h.isLinkRoot c = false → T.tag = h.tag c → T.value = (h.node c).value → T.flags.has Flags.linked = true →
      ((∀ z, Below h c z → h.isLinkRoot z = false) → T.pre.map Tree.facts = (h.tree c).pre.map Tree.linkedData) → ShowsItem h c T
  | link {c s : Id} {T : Tree} : h.isLinkRoot c = true → T.tag = h.tag c → T.value = (h.node c).value → T.flags.has Flags.linked = true → Source h c s → T.kids.length = (h.kids s).length →
      (∀ (i : Nat) d k, (h.kids s)[i]? = some d → T.kids[i]? = some k → ShowsItem h d k) → ShowsItem h c T

end ITree
