import Verif.Model.FileLinks
import Verif.Spec.FileLinks
import Verif.Props.FindLink
import Verif.Props.Files
/-
Lemmas for links to files: what is kept by storing and loading a tree.
-/
namespace ITree

mutual
/-- tags, values and the flags that are not handed down, in deep order -/
def Shape.data : Shape → List (Tag × Val × Flags)
  | .node t v f _ ks => (t, v, f &&& ~~~Flags.deepMask) :: Shape.dataL ks
def Shape.dataL : List Shape → List (Tag × Val × Flags)
  | [] => []
  | k :: ks => k.data ++ Shape.dataL ks
end

theorem Shape.dataL_eq (l : List Shape) : Shape.dataL l = l.flatMap Shape.data := by
  induction l with
  | nil => rfl
  | cons a l ih => simp [Shape.dataL, ih]

theorem mask_or (f g : Flags) (hg : g &&& Flags.deepMask = g) : (f ||| g) &&& ~~~Flags.deepMask = f &&& ~~~Flags.deepMask := by
  revert hg; revert f g; decide +kernel

mutual
theorem Shape.data_or (g : Flags) (hg : g &&& Flags.deepMask = g) : ∀ s : Shape, (s.or g).data = s.data
  | .node t v f l ks => by
    simp only [Shape.or, Shape.data, mask_or _ _ hg]
    rw [Shape.dataL_or g hg ks]
theorem Shape.dataL_or (g : Flags) (hg : g &&& Flags.deepMask = g) : ∀ l : List Shape, Shape.dataL (Shape.orL g l) = Shape.dataL l
  | [] => rfl
  | k :: ks => by simp only [Shape.orL, Shape.dataL, Shape.data_or g hg k, Shape.dataL_or g hg ks]
end

theorem deep_deep (f : Flags) : (f &&& Flags.deepMask) &&& Flags.deepMask = f &&& Flags.deepMask := by
  revert f; decide

mutual
theorem Shape.data_restored : ∀ s : Shape, s.restored.data = s.data
  | .node t v f l ks => by
    simp only [Shape.restored, Shape.data]
    rw [Shape.dataL_or _ (deep_deep f), Shape.dataL_restored ks]
theorem Shape.dataL_restored : ∀ l : List Shape, Shape.dataL (Shape.restoredL l) = Shape.dataL l
  | [] => rfl
  | k :: ks => by simp only [Shape.restoredL, Shape.dataL, Shape.data_restored k, Shape.dataL_restored ks]
end

/-- tag, value and masked flags of an item -/
def Tree.datum (T : Tree) : Tag × Val × Flags := (T.tag, T.value, T.flags &&& ~~~Flags.deepMask)

mutual
theorem Tree.shape_data : ∀ T : Tree, T.shape.data = T.pre.map Tree.datum
  | .node i t v f l ks => by
    simp only [Tree.shape, Shape.data, Tree.pre, List.map_cons]
    rw [Tree.shapeL_data ks]; rfl
theorem Tree.shapeL_data : ∀ l : List Tree, Shape.dataL (Tree.shapeL l) = (Tree.preL l).map Tree.datum
  | [] => rfl
  | k :: ks => by simp only [Tree.shapeL, Shape.dataL, Tree.preL, List.map_append, Tree.shape_data k, Tree.shapeL_data ks]
end

mutual
/-- the shape without links and without the flags that are handed down -/
def Shape.naked : Shape → Shape
  | .node t v f _ ks => .node t v (f &&& ~~~Flags.deepMask) none (Shape.nakedL ks)
def Shape.nakedL : List Shape → List Shape
  | [] => []
  | k :: ks => k.naked :: Shape.nakedL ks
end

theorem Shape.nakedL_eq (l : List Shape) : Shape.nakedL l = l.map Shape.naked := by
  induction l with
  | nil => rfl
  | cons a l ih => simp [Shape.nakedL, ih]

mutual
theorem Shape.naked_or (g : Flags) (hg : g &&& Flags.deepMask = g) : ∀ s : Shape, (s.or g).naked = s.naked
  | .node t v f l ks => by
    simp only [Shape.or, Shape.naked, mask_or _ _ hg]
    rw [Shape.nakedL_or g hg ks]
theorem Shape.nakedL_or (g : Flags) (hg : g &&& Flags.deepMask = g) : ∀ l : List Shape, Shape.nakedL (Shape.orL g l) = Shape.nakedL l
  | [] => rfl
  | k :: ks => by simp only [Shape.orL, Shape.nakedL, Shape.naked_or g hg k, Shape.nakedL_or g hg ks]
end

mutual
theorem Shape.naked_restored : ∀ s : Shape, s.restored.naked = s.naked
  | .node t v f l ks => by
    simp only [Shape.restored, Shape.naked]
    rw [Shape.nakedL_or _ (deep_deep f), Shape.nakedL_restored ks]
theorem Shape.nakedL_restored : ∀ l : List Shape, Shape.nakedL (Shape.restoredL l) = Shape.nakedL l
  | [] => rfl
  | k :: ks => by simp only [Shape.restoredL, Shape.nakedL, Shape.naked_restored k, Shape.nakedL_restored ks]
end

theorem mask_mask (f : Flags) : (f &&& ~~~Flags.deepMask) &&& ~~~Flags.deepMask = f &&& ~~~Flags.deepMask := by revert f; decide

mutual
theorem Shape.data_naked : ∀ s : Shape, s.naked.data = s.data
  | .node t v f l ks => by
    simp only [Shape.naked, Shape.data, mask_mask]
    rw [Shape.dataL_naked ks]
theorem Shape.dataL_naked : ∀ l : List Shape, Shape.dataL (Shape.nakedL l) = Shape.dataL l
  | [] => rfl
  | k :: ks => by simp only [Shape.nakedL, Shape.dataL, Shape.data_naked k, Shape.dataL_naked ks]
end

/-- `y` in `g` looks like `x` in `h`, apart from links and handed-down flags -/
def Twin (h : Heap) (x : Id) (g : Heap) (y : Id) : Prop := (g.tree y).shape.naked = (h.tree x).shape.naked

theorem kids_naked {h : Heap} (W : WF h) (F : Forest h) (x : Id) : (h.kids x).map (fun c => (h.tree c).shape.naked) = (h.tree x).shape.naked.kids := by
  have R := tree_rep W F x
  have hk : h.kids x = (h.tree x).kids.map Tree.id := by have := R.kids; rw [tree_id] at this; exact this
  have e : (h.tree x).shape.naked.kids = (h.tree x).kids.map fun k => k.shape.naked := by
    cases h.tree x; simp only [Tree.shape, Shape.naked, Shape.kids, Tree.kids, shapeL_eq, Shape.nakedL_eq, List.map_map]; rfl
  rw [hk, e, List.map_map]
  refine List.map_congr_left fun k hk => ?_
  show (h.tree k.id).shape.naked = k.shape.naked
  rw [(R.kid hk).tree W]

/-- the tag at the top of a shape -/
def Shape.top : Shape → Tag
  | .node t _ _ _ _ => t

theorem naked_top {h : Heap} (W : WF h) (F : Forest h) (x : Id) : (h.tree x).shape.naked.top = h.tag x := by
  have R := tree_rep W F x
  have ei := tree_id h x
  revert R ei
  cases h.tree x with
  | node i t v f l ks =>
    intro R ei
    simp only [Tree.id] at ei
    subst ei
    simp only [Rep] at R
    exact R.1.symm

theorem at_map {F : Id → Shape} {G : Id → Shape} {l m : List Id} (e : l.map F = m.map G) {i : Int} {x : Id} (A : AtIdx l i x) : ∃ y, AtIdx m i y ∧ F x = G y := by
  obtain ⟨n, hn, hi⟩ := A
  have hlen : l.length = m.length := by have := congrArg List.length e; simpa using this
  have := congrArg (·[n]?) e
  simp only [List.getElem?_map, hn, Option.map_some] at this
  cases hm : m[n]? with
  | none => rw [hm] at this; cases this
  | some y =>
    rw [hm, Option.map_some, Option.some.injEq] at this
    exact ⟨y, ⟨n, hm, by rw [← hlen]; exact hi⟩, this⟩

theorem filter_map {F : Id → Shape} {t : Id → Tag} (hF : ∀ c, (F c).top = t c) (g : Tag) (l : List Id) : (l.filter fun c => t c = g).map F = (l.map F).filter fun s => s.top = g := by
  rw [List.filter_map]
  congr 1
  refine List.filter_congr fun c _ => ?_
  simp [hF c]

theorem LeadsTo.twin {h g : Heap} (W : WF h) (F : Forest h) (W' : WF g) (F' : Forest g) {x s : Id} {ts : List Tag} (L : LeadsTo h x ts s) : ∀ {y : Id}, Twin h x g y → ∃ s', LeadsTo g y ts s' ∧ Twin h s g s' := by
  induction L with
  | here p => intro y T; exact ⟨y, .here y, T⟩
  | @idx p x z i ts A _ ih =>
    intro y T
    have e : (h.kids p).map (fun c => (h.tree c).shape.naked) = (g.kids y).map fun c => (g.tree c).shape.naked := by rw [kids_naked W F, kids_naked W' F', T]
    obtain ⟨x', A', e'⟩ := at_map e A
    obtain ⟨s', L', T'⟩ := ih (y := x') e'.symm
    exact ⟨s', .idx A' L', T'⟩
  | @key p x z t i ts A _ ih =>
    intro y T
    have e : (h.kids p).map (fun c => (h.tree c).shape.naked) = (g.kids y).map fun c => (g.tree c).shape.naked := by rw [kids_naked W F, kids_naked W' F', T]
    have e2 : ((h.kids p).filter fun c => h.tag c = t).map (fun c => (h.tree c).shape.naked) = ((g.kids y).filter fun c => g.tag c = t).map fun c => (g.tree c).shape.naked := by
      rw [filter_map (naked_top W F), filter_map (naked_top W' F'), e]
    obtain ⟨x', A', e'⟩ := at_map e2 A
    obtain ⟨s', L', T'⟩ := ih (y := x') e'.symm
    exact ⟨s', .key A' L', T'⟩

theorem AtIdx.mem {l : List Id} {i : Int} {x : Id} (A : AtIdx l i x) : x ∈ l := by
  obtain ⟨n, hn, -⟩ := A
  exact List.mem_of_getElem? hn

theorem leads_below {h : Heap} {x s : Id} {ts : List Tag} (L : LeadsTo h x ts s) : Below h x s := by
  induction L with
  | here p => exact .refl
  | idx A _ ih => exact (Below.step .refl A.mem).trans ih
  | key A _ ih => exact (Below.step .refl (List.mem_of_mem_filter A.mem)).trans ih

theorem setLink_setLink (h : Heap) (p : Id) (f f' : LinkSt → LinkSt) : (h.setLink p f).setLink p f' = h.setLink p (f' ∘ f) := by
  simp only [Heap.setLink, Heap.modify]
  congr 1
  funext i
  by_cases e : i = p <;> simp [e, Option.map_map]

end ITree
