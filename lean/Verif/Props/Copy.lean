import Verif.Proofs.CopyLoop
import Verif.Proofs.Separate4
import Verif.Props.Demo
/-
C31: copies; C49: trees do not influence each other.
-/
namespace ITree

variable {ms : ModelSet} {h : Heap}

/-- `copy()`, `deepcopy()`, `copy_keep_value()` – the explicit-stack loop of the code – end without exception in every reachable state.  The copy is a new parentless item; all its
items are new; it has the shape of the original (links of link roots by target only); nothing that existed before has changed. -/
theorem C31_copy (H : Reach ms h) {T : Tree} (R : Rep h T) (hT : T.id < h.next) :
    ∃ (h' : Heap) (T' : Tree), Delivers (fun n => iterCopy n h T.id) (.ok (h', T'.id)) ∧ Rep h' T' ∧ T'.shape = T.copyShape ∧
      h'.par T'.id = none ∧ (∀ i ∈ T'.ids, h.next ≤ i ∧ i < h'.next) ∧ T'.ids.Nodup ∧ Unchanged h h' ∧ Rep h' T := by
  have C := H.core
  have S := copyItem_spec C.wf T.id
  rw [R.tree C.wf] at S
  obtain ⟨T', e, R', s, f⟩ := S.rep
  refine ⟨(copyItem h T.id).1, T', ?_, R', s, ?_, f, R'.ids_nodup S.wf (S.forest C.forest), S.unchanged, ?_⟩
  · rw [e]; exact iterCopy_delivers C.wf C.forest hT
  · rw [e]; simp [Heap.par, S.par]
  · refine R.congr fun i hi => ?_
    have a := R.ids_lt C.wf hT i hi
    have U := S.unchanged
    exact ⟨U.tag i a, U.value i a, U.flags i a, U.link i a, U.kids i a id⟩

/-- the model used for the `copy` call in histories is that loop -/
theorem C31_copy_is_step (H : Reach ms h) {x : Id} (hx : x < h.next) :
    Delivers (fun n => iterCopy n h x) (.ok ((step ms h (.copy x)).1, h.next)) :=
  iterCopy_delivers H.core.wf H.core.forest hx

/-- no item of the tree is a link root or carries a link -/
def NoLinks (T : Tree) : Prop := ∀ S ∈ T.pre, S.link = none

/-- without links the copy has exactly the shape of the original: tags, values, flags and order at every depth -/
theorem C31_same_shape {T : Tree} (H : NoLinks T) : T.copyShape = T.shape := by
  induction T using Tree.ind with
  | H i t v f l ks ih =>
    have h0 := H _ (Tree.self_mem_pre _)
    simp only [Tree.link] at h0
    subst h0
    simp only [Tree.copyShape, Tree.shape, copyShapeL_eq, shapeL_eq, copyLink, Tree.link, Option.map_none, ite_self]
    congr 1
    exact List.map_congr_left fun k hk => ih k hk fun S hS => H S (by
      simp only [Tree.pre, List.mem_cons, preL_eq, List.mem_flatMap]; exact .inr ⟨k, hk, hS⟩)

/-- C49: whatever is done with the items of other trees – any calls, allowed or not, with or without exceptions, also in-depth calls, arithmetic, unpickling – a tree stays exactly
as it is: same items, tags, values, flags, order, and its root stays a root.  Partial: the state before the history must be one reached without `sort` and `clear` (the history itself may use them); these leave former
children behind through which a tree can be reached from outside (`C49_C12_stray_after_sort`). -/
theorem C49_other_trees_untouched_partial (H : Tidy ms h) {T : Tree} (R : Rep h T) (hl : T.id < h.next) (hr : h.par T.id = none)
    (cs : List AnyCall) (hc : ∀ c ∈ cs, ∀ i ∈ c.mentions, i ∉ T.ids) :
    Rep (runActs ms h cs) T ∧ ∀ i ∈ T.ids, (runActs ms h cs).node i = h.node i := by
  have S := H.sep hr hl
  have A := NI.runActs ms cs S (fun c hm i hi b => hc c hm i hi ((below_iff_ids R i).1 b)) trivial
  have same : ∀ i ∈ T.ids, (runActs ms h cs).node i = h.node i := fun i hi => A.same i ((below_iff_ids R i).2 hi)
  refine ⟨R.congr fun i hi => ?_, same⟩
  have e := same i hi
  simp only [Heap.tag, Heap.flags, Heap.kids, e, and_self]

/-- later changes of the original never show in the copy: any history of calls that does not use an item of the copy leaves it as it is (partial: no `sort`, `clear` before the copy) -/
theorem C31_copy_independent_partial (H : Tidy ms h) {T : Tree} (R : Rep h T) (hl : T.id < h.next) (cs : List AnyCall) :
    ∃ T' : Tree, T'.id = h.next ∧ Rep (step ms h (.copy T.id)).1 T' ∧ T'.shape = T.copyShape ∧
      ((∀ c ∈ cs, ∀ i ∈ c.mentions, i ∉ T'.ids) → Rep (runActs ms h (.call (.copy T.id) :: cs)) T') := by
  have C := H.inv.1
  have S := copyItem_spec C.wf T.id
  rw [R.tree C.wf] at S
  obtain ⟨T', e, R', s, f⟩ := S.rep
  have H' : Tidy ms (step ms h (.copy T.id)).1 := .step (.copy T.id) H trivial rfl
  refine ⟨T', e.trans S.root, R', s, fun hc => ?_⟩
  have hlt : T'.id < (step ms h (.copy T.id)).1.next := by rw [e]; exact S.lt
  have hp : (step ms h (.copy T.id)).1.par T'.id = none := by
    rw [e]; simp [Heap.par, step, S.par]
  exact (C49_other_trees_untouched_partial H' R' hlt hp cs hc).1

/-- … and vice versa: any history that uses no item of the (parentless) original leaves the original as it is (partial: as before) -/
theorem C31_original_independent_partial (H : Tidy ms h) {T : Tree} (R : Rep h T) (hl : T.id < h.next) (hr : h.par T.id = none) (cs : List AnyCall)
    (hc : ∀ c ∈ cs, ∀ i ∈ c.mentions, i ∉ T.ids) : Rep (runActs ms h (.call (.copy T.id) :: cs)) T := by
  refine (C49_other_trees_untouched_partial H R hl hr (.call (.copy T.id) :: cs) ?_).1
  intro c hm i hi
  rcases List.mem_cons.1 hm with rfl | hm
  · simp [AnyCall.mentions, Call.mentions] at hi
  · exact hc c hm i hi

/-- working with the copy (and with items made later) changes no object that existed before, wherever it is in the tree – not even its cached positions -/
theorem C31_old_items_untouched_partial (H : Tidy ms h) (x : Id) (cs : List AnyCall) (hc : ∀ c ∈ cs, ∀ i ∈ c.mentions, h.next ≤ i) (i : Id) (hi : i < h.next) :
    (runActs ms h (.call (.copy x) :: cs)).node i = h.node i := by
  have W := H.inv.1.wf
  have S : Sep (fun i => i < h.next) True h := by
    refine ⟨fun i hi => hi, fun i hi => ?_⟩
    obtain ⟨a, b⟩ := W.fresh i (by omega)
    refine ⟨?_, ?_, fun F hF => ?_, fun F hF => ?_, fun l y e1 e2 => ?_⟩
    · have a : (h.node i).items = [] := a
      rw [a]; simp
    · rw [b]; simp
    · rw [W.fams_nil i F a hF]; exact .nil
    · obtain rfl := H.staleNil hF; exact ⟨.inl trivial, .nil⟩
    · have := H.inv.1.nocov i
      simp [coverOf, e1, e2] at this
  refine (NI.runActs ms (.call (.copy x) :: cs) S (fun c hm j hj => ?_) trivial).same i hi
  rcases List.mem_cons.1 hm with rfl | hm
  · simp [AnyCall.mentions, Call.mentions] at hj
  · have := hc c hm j hj; omega

/-! ### non-vacuity -/

example : (demo.tree 0).ids = [0, 1, 4, 2, 3, 5] := by decide +kernel
/-- the copy of the demo tree -/
example : ((copyItem demo 0).1.tree 7).ids = [7, 8, 9, 10, 11, 12] := by decide +kernel
/-- the loop really runs: it needs a fixed number of rounds for the demo tree -/
example : (match iterCopy 20 demo 0 with | some (.ok r) => (r.1.tree r.2).ids | _ => []) = [7, 8, 9, 10, 11, 12] := by decide +kernel
example : ∃ T : Tree, T.id = 0 ∧ Rep demo T ∧ T.id < demo.next ∧ demo.par 0 = none ∧ (∀ c ∈ [AnyCall.call (.append 6 (.val .noValue)), .more (.deepReverse 5 7), .call (.clear 7 false), .more (.deepRemove 6 (.int 0) []), .more (.add 0 7), .call (.sort 7 (fun _ => 0) true)],
    ∀ i ∈ c.mentions, i ∉ T.ids) := by
  refine ⟨demo.tree 0, tree_id _ _, tree_rep demo_core.wf demo_core.forest 0, by decide +kernel, by decide +kernel, ?_⟩
  have e : (demo.tree 0).ids = [0, 1, 4, 2, 3, 5] := by decide +kernel
  rw [e]; decide

end ITree
