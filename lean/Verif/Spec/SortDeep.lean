import Verif.Spec.Rep
import Mathlib.Data.List.Forall2
/-
Specification: a tree sorted level by level.
-/
namespace ITree

/-- No item of the tree is protected (no read-only, linked, link-root or placeholder flag) and none holds a link. -/
inductive Shape.Free : Shape → Prop
  | node {t v f ks} : f.has Flags.treeProtected = false → (∀ k ∈ ks, Shape.Free k) → Shape.Free (.node t v f none ks)

mutual
/-- a test for `Free` -/
def Shape.freeB : Shape → Bool
  | .node _ _ f l ks => !f.has Flags.treeProtected && l.isNone && Shape.freeBL ks
def Shape.freeBL : List Shape → Bool
  | [] => true
  | k :: ks => k.freeB && Shape.freeBL ks
end

mutual
theorem Shape.free_of : ∀ s : Shape, s.freeB = true → s.Free
  | .node t v f l ks => by
    intro h
    simp only [Shape.freeB, Bool.and_eq_true, Bool.not_eq_true', Option.isNone_iff_eq_none] at h
    obtain ⟨⟨h1, rfl⟩, h2⟩ := h
    exact .node h1 (Shape.free_ofL ks h2)
theorem Shape.free_ofL : ∀ ks : List Shape, Shape.freeBL ks = true → ∀ k ∈ ks, k.Free
  | [], _ => by simp
  | k :: ks, h => by
    simp only [Shape.freeBL, Bool.and_eq_true] at h
    intro k' hk'
    have h1 := Shape.free_of k h.1
    rcases List.mem_cons.1 hk' with e | hk'
    · exact e ▸ h1
    · exact Shape.free_ofL ks h.2 k' hk'
end

/-- The second tree is the first one with the children of every item sorted by the key: the children are a permutation in which the keys are
non-decreasing (non-increasing if `rev`), children with equal keys keep their order, and each child is sorted in the same way.  The key sees a child
as it was before its own children were sorted. -/
inductive SortedDeep (K : Shape → Int) (rev : Bool) : Shape → Shape → Prop
  | node {t v f l} {ks ls ks' : List Shape} : ls.Perm ks → (ls.Pairwise fun a b => if rev then K b ≤ K a else K a ≤ K b) →
      (∀ k, ls.filter (fun c => K c = k) = ks.filter fun c => K c = k) → List.Forall₂ (SortedDeep K rev) ls ks' →
      SortedDeep K rev (.node t v f l ks) (.node t v f l ks')

end ITree
