import Verif.Props.Copy
import Verif.Props.Membership
import Verif.Proofs.Init
/-
C07: `extend` with an item as argument.
-/
namespace ITree

variable {ms : ModelSet} {h : Heap}

/-- extending with the children of an item (none of them above the receiver): copies -/
theorem extend_kids {g : Heap} (C : Core g) {p v : Id} (hp : p < g.next) (hb : ∀ k ∈ g.kids v, ¬ Below g k p) :
    ∃ Ts : List Tree, (iterExtend g p ((g.kids v).map Arg.item)).kids p = g.kids p ++ Ts.map Tree.id ∧ (∀ T ∈ Ts, Rep (iterExtend g p ((g.kids v).map Arg.item)) T) ∧
      Ts.map Tree.shape = (g.kids v).map (fun k => (g.tree k).copyShape) ∧ (∀ T ∈ Ts, (iterExtend g p ((g.kids v).map Arg.item)).par T.id = some p ∧ g.next ≤ T.id) ∧
      Frame g (iterExtend g p ((g.kids v).map Arg.item)) (· = p) (fun _ => False) := by
  have hpar : ∀ k ∈ g.kids v, g.par k ≠ none := fun k hk => by rw [par_child C.wf hk]; simp
  have hlt : ∀ i, Arg.item i ∈ (g.kids v).map Arg.item → i < g.next := by
    intro i hi
    obtain ⟨j, hj, e⟩ := List.mem_map.1 hi
    cases e; exact C.wf.kids_lt v i hj
  have hin : ∀ i, Arg.item i ∈ (g.kids v).map Arg.item → i ∈ g.kids v := by
    intro i hi
    obtain ⟨j, hj, e⟩ := List.mem_map.1 hi
    cases e; exact hj
  obtain ⟨xs, S⟩ := iterExtend_spec C.wf hp ((g.kids v).map Arg.item) hlt
  have F' := S.forest C.forest fun i hi e => absurd e (hpar i (hin i hi))
  have len : xs.length = (g.kids v).length := by rw [S.len, List.length_map]
  have each : ∀ (j : Nat) k x, (g.kids v)[j]? = some k → xs[j]? = some x → g.next ≤ x ∧ ∃ T : Tree, T.id = x ∧ Rep (iterExtend g p ((g.kids v).map Arg.item)) T ∧ T.shape = (g.tree k).copyShape := by
    intro j k x hk hx
    have hkm := List.mem_of_getElem? hk
    have E := S.each j (.item k) x (by rw [List.getElem?_map, hk]; rfl) hx
    have := E.2 (.inl (hpar k hkm))
    exact ⟨this.1, this.2 F' (hb k hkm)⟩
  refine ⟨xs.map (iterExtend g p ((g.kids v).map Arg.item)).tree, ?_, ?_, ?_, ?_, ?_⟩
  · rw [S.kids, List.map_map]
    congr 1
    refine (List.map_id' xs).symm.trans (List.map_congr_left fun x _ => (tree_id _ x).symm)
  · intro T hT
    obtain ⟨x, -, rfl⟩ := List.mem_map.1 hT
    exact tree_rep S.wf F' x
  · rw [List.map_map]
    apply List.ext_getElem?
    intro j
    rw [List.getElem?_map, List.getElem?_map]
    by_cases hj : j < xs.length
    · have e1 := List.getElem?_eq_getElem hj
      have e2 := List.getElem?_eq_getElem (l := g.kids v) (i := j) (by omega)
      obtain ⟨_, T, t1, t2, t3⟩ := each j _ _ e2 e1
      rw [e1, e2]
      simp only [Option.map_some, Function.comp_apply]
      have := t2.tree S.wf
      rw [t1] at this
      rw [this, t3]
    · rw [List.getElem?_eq_none (by omega), List.getElem?_eq_none (by omega)]; rfl
  · intro T hT
    obtain ⟨x, hx, rfl⟩ := List.mem_map.1 hT
    rw [tree_id]
    obtain ⟨j, hj, e⟩ := List.getElem_of_mem hx
    exact ⟨S.par x hx, (each j _ x (List.getElem?_eq_getElem (by omega)) (by rw [← e]; exact List.getElem?_eq_getElem hj)).1⟩
  · have f := S.frame
    refine ⟨f.next, f.tag, f.value, f.flags, f.link, f.kids, fun i hi _ => ?_⟩
    by_cases hm : Arg.item i ∈ (g.kids v).map Arg.item
    · exact iterExtend_keepPar C.wf hp _ hlt hi (hpar i (hin i hm))
    · exact f.par i hi hm

theorem ancestor_of_below (W : WF h) {u p : Id} (b : Below h u p) : ∃ m, ancestor h m p = some u := by
  induction b with
  | refl => exact ⟨0, rfl⟩
  | @step q c _ hc ih =>
    obtain ⟨m, e⟩ := ih
    exact ⟨m + 1, by simp only [ancestor, par_child W hc]; exact e⟩

theorem ancestor_top {k k' : Nat} {x r r' : Id} (e : ancestor h k x = some r) (e' : ancestor h k' x = some r') (hr : h.par r = none) (hr' : h.par r' = none) : k = k' ∧ r = r' := by
  have more : ∀ n s, h.par s = none → ancestor h (n + 1) s = none := fun n s hs => by simp [ancestor, hs]
  rcases Nat.lt_trichotomy k k' with hlt | heq | hgt
  · obtain ⟨d, rfl⟩ : ∃ d, k' = k + (d + 1) := ⟨k' - k - 1, by omega⟩
    rw [ancestor_add k (d + 1) x r e, more d r hr] at e'; cases e'
  · subst heq; rw [e] at e'; cases e'; exact ⟨rfl, rfl⟩
  · obtain ⟨d, rfl⟩ : ∃ d, k = k' + (d + 1) := ⟨k - k' - 1, by omega⟩
    rw [ancestor_add k' (d + 1) x r' e', more d r' hr'] at e; cases e

/-- items in one tree have the same root -/
theorem root_of_below (C : Core h) (Z : NoZombie h) {u p : Id} (b : Below h u p) : h.root u = h.root p := by
  obtain ⟨m, em⟩ := ancestor_of_below C.wf b
  obtain ⟨k, r, e, hr, hk⟩ := climb C Z u
  obtain ⟨k', r', e', hr', hk'⟩ := climb C Z p
  have e2 : ancestor h (m + k) p = some r := by rw [ancestor_add m k p u em]; exact e
  obtain ⟨-, rfl⟩ := ancestor_top e2 e' hr hr'
  unfold Heap.root
  rw [rootAux_eq k _ u r e hr hk, rootAux_eq k' _ p r e' hr' hk']

/-- C07 (an item as argument; states reached without `sort` and `clear`). `t.extend(u)` on an unprotected item `t`, for any item `u` – another tree, the same tree, an item above `t`, even `t` itself: the children are the old
ones followed by copies of the children `u` had before the call, in order; the copies and everything below them are new; nothing else changes, `u` keeps its children. -/
theorem C07_extend_tree (H : Tidy ms h) {p : Id} (hp : p < h.next) (hpr : h.isProtected p = false) (u : Id) :
    ∃ (h' : Heap) (Ts : List Tree), extendTree h p u = (h', .ok ()) ∧ h'.kids p = h.kids p ++ Ts.map Tree.id ∧ (∀ T ∈ Ts, Rep h' T ∧ h'.par T.id = some p ∧ ∀ i ∈ T.ids, h.next ≤ i) ∧
      Ts.map Tree.shape = (h.kids u).map (fun k => (h.tree k).copyShape) ∧ Frame h h' (· = p) (fun _ => False) := by
  obtain ⟨C, Z⟩ := H.inv
  have W := C.wf
  have fresh : ∀ h' : Heap, WF h' → Frame h h' (· = p) (fun _ => False) → ∀ T, Rep h' T → h.next ≤ T.id → ∀ i ∈ T.ids, h.next ≤ i := by
    intro h' W' f T R hT i hi
    have b := (below_iff_ids R i).2 hi
    clear hi
    induction b with
    | refl => exact hT
    | @step q c _ hc ih =>
      apply Classical.byContradiction
      intro hn
      have hn : c < h.next := by omega
      have hpc := f.par c hn (fun a => a)
      rw [par_child W' hc] at hpc
      have := Z c q hpc.symm
      rw [(W.fresh q ih).1] at this
      simp at this
  have g0 : guardExtend h p ((h.kids u).map Arg.item) = none := by simp [guardExtend, hpr]
  have wfE : ∀ {g : Heap} {v : Id}, Core g → p < g.next → WF (iterExtend g p ((g.kids v).map Arg.item)) := by
    intro g v Cg hg
    obtain ⟨xs, S⟩ := iterExtend_spec Cg.wf hg ((g.kids v).map Arg.item) (by
      intro i hi
      obtain ⟨j, hj, e⟩ := List.mem_map.1 hi
      cases e; exact Cg.wf.kids_lt v i hj)
    exact S.wf
  by_cases hr : h.root u = h.root p
  · have S := copyItem_spec W u
    have K := S.keeps C
    obtain ⟨T, t1, t2, t3, t4⟩ := S.rep
    have U := S.unchanged
    have nb : ∀ k ∈ (copyItem h u).1.kids (copyItem h u).2, ¬ Below (copyItem h u).1 k p := by
      intro k hk b
      have b2 : Below (copyItem h u).1 T.id p := by rw [t1]; exact below_trans (Below.refl.step hk) b
      have := (t4 p ((below_iff_ids t2 p).1 b2)).1
      omega
    obtain ⟨Ts, a1, a2, a3, a4, a5⟩ := extend_kids K.core (p := p) (v := (copyItem h u).2) (Nat.lt_of_lt_of_le hp K.le) nb
    have fr : Frame h (iterExtend (copyItem h u).1 p (((copyItem h u).1.kids (copyItem h u).2).map Arg.item)) (· = p) (fun _ => False) :=
      ⟨Nat.le_trans U.next a5.next, fun i hi => (a5.tag i (Nat.lt_of_lt_of_le hi K.le)).trans (U.tag i hi), fun i hi => (a5.value i (Nat.lt_of_lt_of_le hi K.le)).trans (U.value i hi),
        fun i hi => (a5.flags i (Nat.lt_of_lt_of_le hi K.le)).trans (U.flags i hi), fun i hi => (a5.link i (Nat.lt_of_lt_of_le hi K.le)).trans (U.link i hi),
        fun i hi hk => (a5.kids i (Nat.lt_of_lt_of_le hi K.le) hk).trans (U.kids i hi (fun a => a)), fun i hi hk => (a5.par i (Nat.lt_of_lt_of_le hi K.le) hk).trans (U.par i hi (fun a => a))⟩
    refine ⟨_, Ts, by simp only [extendTree, g0, hpr, hr]; simp, ?_, fun T hT => ⟨a2 T hT, (a4 T hT).1, ?_⟩, ?_, fr⟩
    · rw [a1, U.kids p hp (fun a => a)]
    · exact fresh _ (wfE K.core (Nat.lt_of_lt_of_le hp K.le)) fr T (a2 T hT) (Nat.le_trans K.le (a4 T hT).2)
    · rw [a3]
      have ek : (copyItem h u).1.kids (copyItem h u).2 = T.kids.map Tree.id := by rw [← t1]; exact t2.kids
      have R := tree_rep W C.forest u
      have ek2 : h.kids u = (h.tree u).kids.map Tree.id := by have := R.kids; rwa [tree_id] at this
      have sh : T.kids.map Tree.shape = (h.tree u).kids.map Tree.copyShape := by
        revert t3
        cases T; cases h.tree u
        simp only [Tree.shape, Tree.copyShape, Shape.node.injEq, shapeL_eq, copyShapeL_eq, Tree.kids]
        intro hh; exact hh.2.2.2.2
      rw [ek, ek2, List.map_map, List.map_map]
      have l1 : T.kids.map ((fun k => ((copyItem h u).1.tree k).copyShape) ∘ Tree.id) = (T.kids.map Tree.shape).map Shape.copy := by
        rw [List.map_map]
        refine List.map_congr_left fun k hk => ?_
        simp only [Function.comp_apply]
        rw [(t2.kid hk).tree S.wf, copyShape_eq]
      have l2 : (h.tree u).kids.map ((fun k => (h.tree k).copyShape) ∘ Tree.id) = (h.tree u).kids.map Tree.copyShape := by
        refine List.map_congr_left fun k hk => ?_
        simp only [Function.comp_apply]
        rw [(R.kid hk).tree W]
      rw [l1, l2, sh, List.map_map]
      refine List.map_congr_left fun k _ => ?_
      simp only [Function.comp_apply, copyShape_eq, Shape.copy_copy]
  · have nb : ∀ k ∈ h.kids u, ¬ Below h k p := fun k hk b => hr (root_of_below C Z (below_trans (Below.refl.step hk) b))
    obtain ⟨Ts, a1, a2, a3, a4, a5⟩ := extend_kids C (p := p) (v := u) hp nb
    refine ⟨_, Ts, by simp only [extendTree, g0, hpr, beq_iff_eq, hr, Bool.not_false, Bool.true_and, if_neg, not_false_iff], a1, fun T hT => ⟨a2 T hT, (a4 T hT).1, ?_⟩, a3, a5⟩
    exact fresh _ (wfE C hp) a5 T (a2 T hT) (a4 T hT).2

/-- the item 1 of the demo tree is extended by the children of the root above it: 1, 2, 3, 5 are copied, 1 with its child -/
example : ((extendTree demo 1 0).1.kids 1).length = 5 ∧ (demo.kids 1).length = 1 ∧ demo.isProtected 1 = false ∧ (extendTree demo 1 0).1.kids 0 = demo.kids 0 := by decide +kernel

end ITree
