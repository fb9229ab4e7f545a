import Verif.Model.ArgLists
import Verif.Props.Repr
import Verif.Props.Placing
/-
C07, C50: argument lists among the items.
-/
namespace ITree

variable {ms : ModelSet} {h : Heap}

/-- C50 (argument lists): `iTree(tag, value, [args, …], None, flags)` with nested argument lists makes a new parentless tree of new items with exactly the tags, values, flags, links and nesting given in the lists (the flags
read-only-tree and load-links pushed down); nothing existing changes.  Links are given as file and path with the flag LINK_ROOT and are not to be loaded (`QuietL`). -/
theorem C50_argument_lists (H : Reach ms h) (t : Tag) (v : Val) (ds : List Shape) (f : Flags) (hq : Shape.QuietL ds) :
    Rebuilt ms h (newFromLists h t v ds f).1 (newFromLists h t v ds f).2 (.node t v f none ((ds.map Shape.restored).map (Shape.or (f &&& Flags.deepMask)))) := by
  have := rebuilt_of H (.node t v f none ds) ⟨fun lk e => (by cases e), hq⟩
  rw [Shape.restored, restoredL_eq, orL_eq, Option.map_none, ite_self] at this
  exact this

/-- C07 (argument lists): `t.extend([args, …])` on an unprotected item adds, behind the old children and in order, one new tree per argument list, with the tags, values, flags and nesting given in it; everything else is
unchanged. -/
theorem C07_extend_lists (H : Reach ms h) {p : Id} (hp : p < h.next) (hpr : h.isProtected p = false) (ds : List Shape) (hq : Shape.QuietL ds) :
    ∃ (h' : Heap) (Ts : List Tree), extendLists h p ds = (h', .ok ()) ∧ h'.kids p = h.kids p ++ Ts.map Tree.id ∧ (∀ T ∈ Ts, Rep h' T ∧ h'.par T.id = some p ∧ ∀ i ∈ T.ids, h.next ≤ i) ∧
      Ts.map Tree.shape = ds.map Shape.restored ∧ Frame h h' (· = p) (fun _ => False) := by
  obtain ⟨K, ⟨k1, k2⟩, M⟩ := rebuildL_spec (made_law ms h) ds hq (Made.start H)
  rw [List.append_nil] at M
  have g0 : guardExtend h p [] = none := by simp [guardExtend, hpr]
  simp only [extendLists, g0, ← k1]
  generalize (rebuildL h ds).1 = h1 at *
  have U := M.same
  have C1 := M.reach.core
  have W1 := C1.wf
  have hp1 : p < h1.next := Nat.lt_of_lt_of_le hp U.next
  have hin : ∀ i, Arg.item i ∈ (K.map Prod.fst).map Arg.item → ∃ q ∈ K, q.1 = i := by intro i hi; simpa using hi
  have hpr1 : h1.isProtected p = false := by
    have := U.flags p hp
    simp only [Heap.isProtected, Heap.flags] at *
    rw [this]; exact hpr
  have nb : ∀ q ∈ K, ¬ Below h1 q.1 p := by
    intro q hq b
    obtain ⟨T, t1, _, t3, _, _, t6⟩ := M.tree q hq
    have := t6 p ((below_iff_ids t3 p).1 (by rw [t1]; exact b))
    omega
  obtain ⟨h', xs, e1, e2, e3, e4, e5, e6⟩ := C07_extend M.reach hp1 hpr1 ((K.map Prod.fst).map Arg.item) (by intro a ha; obtain ⟨i, -, rfl⟩ := List.mem_map.1 ha; rfl)
    (fun i hi => by obtain ⟨q, hq, rfl⟩ := hin i hi; obtain ⟨T, _, _, _, _, hl, _⟩ := M.tree q hq; exact hl)
    (fun i hi => by obtain ⟨q, hq, rfl⟩ := hin i hi; exact nb q hq)
  have xe : xs = K.map Prod.fst := by
    apply List.ext_getElem?
    intro j
    by_cases hj : j < xs.length
    · have hj2 : j < (K.map Prod.fst).length := by simpa [e3] using hj
      have a1 := List.getElem?_eq_getElem hj
      have a2 := List.getElem?_eq_getElem hj2
      have S := e5 j _ _ (by rw [List.getElem?_map, a2]; rfl) a1
      have hm : (K.map Prod.fst)[j] ∈ K.map Prod.fst := List.getElem_mem hj2
      obtain ⟨q, hq, eq⟩ := List.mem_map.1 hm
      obtain ⟨T, _, _, _, t4, _, _⟩ := M.tree q hq
      have := S.1 ⟨by rw [← eq]; exact t4, by
        intro hmem
        rw [← List.map_take] at hmem
        obtain ⟨y, hy, ey⟩ := List.mem_map.1 hmem
        cases ey
        obtain ⟨k, hk, ek⟩ := List.getElem_of_mem hy
        rw [List.getElem_take] at ek
        have := (List.Nodup.getElem_inj_iff M.nodup).1 ek
        simp only [List.length_take] at hk
        omega⟩
      rw [a1, a2, this]
    · rw [List.getElem?_eq_none (by omega), List.getElem?_eq_none (by simpa [e3] using hj)]
  subst xe
  have keep : ∀ q ∈ K, ∃ T : Tree, T.id = q.1 ∧ T.shape = q.2 ∧ Rep h' T ∧ ∀ i ∈ T.ids, h.next ≤ i := by
    intro q hq
    obtain ⟨T, t1, t2, t3, t4, t5, t6⟩ := M.tree q hq
    refine ⟨T, t1, t2, t3.congr fun i hi => ?_, t6⟩
    have hl := t3.ids_lt W1 (by rw [t1]; exact t5) i hi
    exact ⟨e6.tag i hl, e6.value i hl, e6.flags i hl, e6.link i hl, e6.kids i hl (fun e => by have := t6 i hi; omega)⟩
  have L : ∀ K' : List (Id × Shape), (∀ q ∈ K', q ∈ K) → ∃ Ts : List Tree, Ts.map Tree.id = K'.map Prod.fst ∧ Ts.map Tree.shape = K'.map Prod.snd ∧ ∀ T ∈ Ts, Rep h' T ∧ ∀ i ∈ T.ids, h.next ≤ i := by
    intro K'
    induction K' with
    | nil => intro _; exact ⟨[], rfl, rfl, by simp⟩
    | cons q K' ih =>
      intro hh
      obtain ⟨Ts, a, b, c⟩ := ih fun r hr => hh r (by simp [hr])
      obtain ⟨T, t1, t2, t3, t4⟩ := keep q (hh q (by simp))
      refine ⟨T :: Ts, by simp [a, t1], by simp [b, t2], fun S hS => ?_⟩
      rcases List.mem_cons.1 hS with rfl | hS
      · exact ⟨t3, t4⟩
      · exact c S hS
  obtain ⟨Ts, a, b, c⟩ := L K fun _ hq => hq
  refine ⟨h', Ts, e1, ?_, fun T hT => ⟨(c T hT).1, e4 _ (by rw [← a]; exact List.mem_map_of_mem hT), (c T hT).2⟩, by rw [b, k2], ?_⟩
  · rw [e2, a, U.kids p hp (fun x => x)]
  · refine ⟨Nat.le_trans U.next e6.next, fun i hi => ?_, fun i hi => ?_, fun i hi => ?_, fun i hi => ?_, fun i hi hk => ?_, fun i hi _ => ?_⟩
    all_goals have hl := Nat.lt_of_lt_of_le hi U.next
    · exact (e6.tag i hl).trans (U.tag i hi)
    · exact (e6.value i hl).trans (U.value i hi)
    · exact (e6.flags i hl).trans (U.flags i hi)
    · exact (e6.link i hl).trans (U.link i hi)
    · exact (e6.kids i hl hk).trans (U.kids i hi (fun x => x))
    · refine (e6.par i hl ?_).trans (U.par i hi (fun x => x))
      rintro ⟨hm, -⟩
      obtain ⟨q, hq, rfl⟩ := hin i hm
      obtain ⟨T, t1, _, _, _, _, t6⟩ := M.tree q hq
      have := t6 T.id (by cases T; rw [Tree.ids_node]; simp [Tree.id])
      omega

/-- C07, C21, C24. on a structure-protected item that is no link root `t.extend([args, …])` raises PermissionError – also for no lists at all – and nothing is created or changed. -/
theorem C07_C21_C24_extend_lists_protected {p : Id} (ds : List Shape) (hpr : h.isProtected p = true) (hlr : h.isLinkRoot p = false) : extendLists h p ds = (h, .error .permission) := by
  simp [extendLists, guardExtend, hpr, hlr]

example : (extendLists (setTreeReadOnly demo 0).1 0 [.node (.str "a") (.int 5) 0#6 none []]).2 = .error .permission := by decide +kernel

/-- Disagreement with "any other object is taken as a value": `t.extend([["a", 5]])` adds a child with tag "a" and value 5, not a child whose value is the list; `append` takes the list as value. -/
theorem C07_list_is_no_value : (extendLists demo 2 [.node (.str "a") (.int 5) 0#6 none []]).1.tag ((extendLists demo 2 [.node (.str "a") (.int 5) 0#6 none []]).1.kids 2).head! = .str "a" ∧
    ((append demo 2 (.val (.list [.str "a", .int 5]))).1.tag ((append demo 2 (.val (.list [.str "a", .int 5]))).1.kids 2).head!) = .noTag := by decide +kernel

/-- two nested argument lists -/
example : let ds : List Shape := [.node (.str "a") (.int 5) 1#6 none [.node .noTag (.int 1) 0#6 none []], .node (.str "b") .noValue 0#6 none []]
    demo.isProtected 2 = false ∧ ((extendLists demo 2 ds).1.kids 2).length = 2 ∧ (extendLists demo 2 ds).1.kids 0 = demo.kids 0 := by decide +kernel

end ITree
