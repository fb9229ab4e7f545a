import Verif.Model.DumpFilter
import Verif.Spec.DumpFilter
import Verif.Proofs.Dump
/-
The generator behind a filtered dump yields the rows of the filtered tree.
-/
namespace ITree

open Json (J PV Env SErr Style Supported Txt Elems)

theorem prune_id (f : Id → Bool) (T : Tree) : (T.prune f).id = T.id := by cases T; rfl
theorem prune_kids (f : Id → Bool) (T : Tree) : (T.prune f).kids = Tree.pruneL f T.kids := by cases T; rfl
theorem prune_tagOf (f : Id → Bool) (T : Tree) : (T.prune f).tagOf = T.tagOf := by cases T; rfl

theorem pruneL_eq (f : Id → Bool) (l : List Tree) : Tree.pruneL f l = (l.filter fun k => f k.id).map (Tree.prune f) := by
  induction l with
  | nil => rfl
  | cons k ks ih => simp only [Tree.pruneL, ih, List.filter_cons]; split <;> simp

theorem filter_ids (f : Id → Bool) (l : List Tree) : (l.map Tree.id).filter f = (l.filter fun k => f k.id).map Tree.id := by
  rw [List.filter_map]; rfl

theorem Heads.prune {h : Heap} (f : Id → Bool) {T : Tree} (R : Heads h T) : Heads h (T.prune f) := by
  induction T using Tree.ind with
  | H i t v g l ks ih =>
    refine ⟨R.1, R.2.1, R.2.2.1, R.2.2.2.1, (headsL_iff h _).2 fun k hk => ?_⟩
    rw [pruneL_eq] at hk
    obtain ⟨k', hk', rfl⟩ := List.mem_map.1 hk
    have hm := (List.mem_filter.1 hk').1
    exact ih k' hm (R.kid hm)

/-- siblings among which nothing is replaced -/
theorem storedL_local (f : DItem → Bool) (link : Bool) (ts : List Tree) (hl : link = true → ∀ k ∈ ts, k.flags.has Flags.linked = false) (hk : ∀ k ∈ ts, onItems f k.id = true → k.stored f = (k.prune (onItems f)).shape) :
    ∀ add all, Tree.storedL f link add all ts = Tree.shapeL (Tree.pruneL (onItems f) ts) := by
  induction ts with
  | nil => intro _ _; rfl
  | cons k ks ih =>
    intro add all
    have hp : (link && add && k.flags.has Flags.linked) = false := by
      cases e : link with
      | false => rfl
      | true => rw [hl e k (by simp)]; simp
    simp only [Tree.storedL, hp, Bool.false_eq_true, if_false, Tree.pruneL]
    rw [ih (fun e k hk => hl e k (by simp [hk])) fun k hm => hk k (by simp [hm])]
    by_cases hf : onItems f k.id = true
    · rw [if_pos (show f (.item k.id) = true from hf), hk k (by simp) hf, if_pos hf]; rfl
    · rw [if_neg (show ¬ f (.item k.id) = true from hf), if_neg hf]; rfl

theorem stored_local (f : DItem → Bool) {h : Heap} {T : Tree} (R : Rep h T) : (∀ y ∈ (T.prune (onItems f)).ids, LocalKids h y) → T.stored f = (T.prune (onItems f)).shape := by
  induction T using Tree.ind with
  | H i t v g l ks ih =>
    intro P
    simp only [Tree.stored, Tree.prune, Tree.shape]
    congr 1
    refine storedL_local f _ ks ?_ ?_ _ _
    · intro e k hk
      have := P i (by simp [Tree.prune, Tree.ids_node]) (by rw [show h.flags i = g from R.2.2.1]; exact e) k.id (by have := R.kids; simp only [Tree.id] at this; rw [this]; exact List.mem_map_of_mem hk)
      rwa [rep_flagsOf (R.kid hk)] at this
    · intro k hk hf
      refine ih k hk (R.kid hk) fun y hy => P y ?_
      simp only [Tree.prune, Tree.ids_node, List.mem_cons, Tree.mem_idsL, pruneL_eq]
      exact .inr ⟨k.prune (onItems f), List.mem_map_of_mem (List.mem_filter.2 ⟨hk, hf⟩), hy⟩

/-- if no kept link root has linked children, a dump stores the filtered tree -/
theorem saved_local (f : DItem → Bool) {h : Heap} {T : Tree} (R : Rep h T) (P : ∀ y ∈ (T.prune (onItems f)).ids, LocalKids h y) : T.saved f = (T.prune (onItems f)).shape := by
  obtain ⟨i, t, v, g, l, ks⟩ := T
  simp only [Tree.saved, Tree.prune, Tree.shape]
  congr 1
  refine storedL_local f _ ks (by simp) ?_ _ _
  intro k hk hf
  refine stored_local f (R.kid hk) fun y hy => P y ?_
  simp only [Tree.prune, Tree.ids_node, List.mem_cons, Tree.mem_idsL, pruneL_eq]
  exact .inr ⟨k.prune (onItems f), List.mem_map_of_mem (List.mem_filter.2 ⟨hk, hf⟩), hy⟩

theorem prune_all (T : Tree) : T.prune (onItems fun _ => true) = T := by
  induction T using Tree.ind with
  | H i t v g l ks ih =>
    simp only [Tree.prune, pruneL_eq, onItems, List.filter_true]
    congr 1
    exact (List.map_congr_left fun k hk => ih k hk).trans (by simp)

/-- the data section of an unfiltered dump without loaded links is a text of the array of rows of the tree -/
theorem dataText_delivers {N : Names} {E : Env} {h : Heap} (W : WF h) {T : Tree} (R : Rep h T) (P : ∀ y ∈ T.ids, LocalKids h y) (hk : T.kids ≠ []) (hs : T.shape.supported N E) (st : Style) :
    ∃ d rows, Delivers (fun n => dataText n N E st h T.id) (.ok d) ∧ Txt (.arr rows) d ∧ RowsOf N E 0 [T.shape] rows := by
  have e := saved_local (fun _ => true) R (by rw [prune_all]; exact P)
  rw [prune_all] at e
  have hsk : T.shape.kids ≠ [] := by
    revert hk; cases T; simp only [Tree.kids, Tree.shape, Shape.kids, shapeL_eq]; simp
  obtain ⟨d, rows, D, tx, ro⟩ := dataTextF_delivers W (fun _ => true) R (by rw [e]; exact hsk) (by rw [e]; exact hs) st
  simp only [dataText_all] at D
  rw [e] at ro
  exact ⟨d, rows, D, tx, ro⟩

/-- what holds for all kept items holds for the items of the filtered tree -/
theorem prune_kept {h : Heap} (f : Id → Bool) (x : Id) {T : Tree} (R : Rep h T) : Stays f h x T.id → ∀ y ∈ (T.prune f).ids, Stays f h x y := by
  induction T using Tree.ind with
  | H i t v g l ks ih =>
    intro K y hy
    simp only [Tree.prune, Tree.ids_node, List.mem_cons, Tree.mem_idsL] at hy
    rcases hy with rfl | ⟨k, hk, hy⟩
    · exact K
    · rw [pruneL_eq] at hk
      obtain ⟨k', hk', rfl⟩ := List.mem_map.1 hk
      obtain ⟨hm, hf⟩ := List.mem_filter.1 hk'
      have := R.kids
      refine ih k' hm (R.kid hm) (.kid K ?_ hf) y hy
      rw [this]; exact List.mem_map_of_mem hm

theorem supported_of_heads {N : Names} {E : Env} {h : Heap} {T : Tree} (R : Heads h T) :
    (∀ y ∈ T.ids, Supported E (N.tagPV (h.tag y)) ∧ Supported E (N.valPV (h.node y).value) ∧ LinkOK N E (h.flags y) (h.node y).link) → T.shape.supported N E := by
  induction T using Tree.ind with
  | H i t v f l ks ih =>
    intro H
    simp only [Tree.ids_node, List.mem_cons, Tree.mem_idsL] at H
    obtain ⟨e1, e2, e3, e4, -⟩ := id R
    have := H i (.inl rfl)
    rw [e1, e2, e3, e4] at this
    refine ⟨this.1, this.2.1, this.2.2, (supportedL_iff N E _).2 ?_⟩
    rw [shapeL_eq]
    intro s hs
    obtain ⟨k, hk, rfl⟩ := List.mem_map.1 hs
    exact ih k hk (R.kid hk) fun y hy => H y (.inr ⟨k, hk, hy⟩)

end ITree
