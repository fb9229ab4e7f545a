import Verif.Proofs.Grown
import Verif.Proofs.Load
import Verif.Proofs.Deep
import Verif.Props.Arith
/-
The class iTree obeys the law of the constructor used by the loader.
-/
namespace ITree

open Json (J PV Env SErr Supported)

/-- the loader has so far made the parentless trees `L` (root and shape) of new items, in the state `h`; `h0` is the state before the load -/
structure Made (ms : ModelSet) (h0 h : Heap) (L : List (Id × Shape)) : Prop where
  reach : Reach ms h
  same : Unchanged h0 h
  fresh : AllFresh h0 → AllFresh h
  nodup : (L.map Prod.fst).Nodup
  tree : ∀ p ∈ L, ∃ T : Tree, T.id = p.1 ∧ T.shape = p.2 ∧ Rep h T ∧ h.par p.1 = none ∧ p.1 < h.next ∧ ∀ j ∈ T.ids, h0.next ≤ j

theorem parent_none {h : Heap} {i : Id} (hp : h.par i = none) : (h.node i).parent = none := by
  simpa [Heap.par] using hp

theorem top_unique {h : Heap} (W : WF h) {a b y : Id} (ha : h.par a = none) (hb : h.par b = none) (h1 : Below h a y) (h2 : Below h b y) : a = b := by
  apply Classical.byContradiction
  intro hab
  rcases below_cases W h1 h2 with h3 | h3
  · exact not_below_top W (parent_none hb) hab h3
  · exact not_below_top W (parent_none ha) (Ne.symm hab) h3

theorem AllFresh.newLink {h : Heap} (F : AllFresh h) (W : WF h) (t v s f file path) (ha : ∀ i, Arg.item i ∈ s → i < h.next) : AllFresh (newLink h t v s f file path).1 := by
  have := F.newItem W t v s f ha
  unfold ITree.newLink
  exact this.structEq (DataOnly.structEq (f := fun n => { n with flags := n.flags ||| Flags.linkRoot, link := some { file := file, path := path } })
    ⟨fun _ => rfl, fun _ => rfl, fun _ => rfl, fun _ => rfl, fun _ => rfl⟩ _ _)

/-- the constructor with or without link, as used by the loader -/
theorem construct_any {ms : ModelSet} {h : Heap} (H : Reach ms h) (t : Tag) (v : Val) (M : List Id) (f : Flags) (lk : Option LinkSt)
    (hlk : ∀ l, lk = some l → l = { file := l.file, path := l.path } ∧ f.has Flags.linkRoot = true ∧ f.has Flags.loadLinks = false) (ha : ∀ i ∈ M, i < h.next) :
    ∃ (h' : Heap) (Ts : List Tree), heapBuilder.new h t v M f lk = (h', h.next) ∧ Reach ms h' ∧ Rep h' (.node h.next t v f lk Ts) ∧ h'.par h.next = none ∧ h.next < h'.next ∧
      Ts.length = (M.map Arg.item).length ∧ (∀ (k : Nat) a T, (M.map Arg.item)[k]? = some a → Ts[k]? = some T → MadeAt h (f &&& Flags.deepMask) ((M.map Arg.item).take k) a T) ∧
      (∀ i, i < h.next → h'.tag i = h.tag i ∧ (h'.node i).value = (h.node i).value ∧ (h'.node i).link = (h.node i).link ∧ h'.kids i = h.kids i) ∧
      (∀ i, i < h.next → h'.flags i = h.flags i ∨ (h'.flags i = h.flags i ||| (f &&& Flags.deepMask) ∧ ∃ j, Arg.item j ∈ M.map Arg.item ∧ h.par j = none ∧ Below h j i)) ∧
      (∀ i, i < h.next → Arg.item i ∉ M.map Arg.item → h'.par i = h.par i) ∧ (AllFresh h → AllFresh h') := by
  have ha' : ∀ i, Arg.item i ∈ M.map Arg.item → i < h.next := fun i hi => ha i (by simpa using hi)
  have hp : ∀ a ∈ M.map Arg.item, a.isPlain = true := by intro a ha; obtain ⟨i, -, rfl⟩ := List.mem_map.1 ha; rfl
  cases lk with
  | none =>
    obtain ⟨h', Ts, e, es, R, pr, hx, len, made, data, flags, par, -⟩ := C50_constructor H t v (M.map Arg.item) f ha' hp
    exact ⟨h', Ts, by simp only [heapBuilder, e], es ▸ H.step (.new t v (M.map Arg.item) f) ⟨ha', hp⟩, R, pr, hx, len, made, data, flags, par,
      fun F => es ▸ (show AllFresh (newItem h t v (M.map Arg.item) f).1 from F.newItem H.core.wf _ _ _ _ ha')⟩
  | some l =>
    obtain ⟨l1, l2, l3⟩ := hlk l rfl
    obtain ⟨h', Ts, e, es, R, pr, hx, len, made, data, flags, par, -⟩ := C50_link H t v (M.map Arg.item) f l.file l.path ha' hp l3
    refine ⟨h', Ts, by simp only [heapBuilder, e], es ▸ H.step (.newLink t v (M.map Arg.item) f l.file l.path) ⟨ha', hp, l3⟩, ?_, pr, hx, len, made, data, flags, par,
      fun F => es ▸ (show AllFresh (newLink h t v (M.map Arg.item) f l.file l.path).1 from F.newLink H.core.wf _ _ _ _ _ _ ha')⟩
    have hf : f ||| Flags.linkRoot = f := by revert l2; clear * -; revert f; decide
    rw [hf, ← l1] at R
    exact R

theorem made_law (ms : ModelSet) (h0 : Heap) : Law heapBuilder (Made ms h0) where
  perm {s L L'} o p := ⟨o.reach, o.same, o.fresh, (p.map Prod.fst).nodup_iff.1 o.nodup, fun q hq => o.tree q (p.mem_iff.2 hq)⟩
  new {h L M} t v f lk hlk o := by
    have C := o.reach.core
    have hM : ∀ p ∈ M, ∃ T : Tree, T.id = p.1 ∧ T.shape = p.2 ∧ Rep h T ∧ h.par p.1 = none ∧ p.1 < h.next ∧ ∀ j ∈ T.ids, h0.next ≤ j := fun p hp => o.tree p (by simp [hp])
    have hL : ∀ p ∈ L, ∃ T : Tree, T.id = p.1 ∧ T.shape = p.2 ∧ Rep h T ∧ h.par p.1 = none ∧ p.1 < h.next ∧ ∀ j ∈ T.ids, h0.next ≤ j := fun p hp => o.tree p (by simp [hp])
    have nd := o.nodup
    rw [List.map_append, List.nodup_append] at nd
    have hsub : ∀ i, Arg.item i ∈ (M.map Prod.fst).map Arg.item → ∃ p ∈ M, p.1 = i := by
      intro i hi
      simpa using hi
    obtain ⟨h', Ts, hnew, RC, R, pr, hx, len, made, data, flags, par, fr⟩ := construct_any o.reach t v (M.map Prod.fst) f lk hlk (by
      intro i hi
      obtain ⟨p, hp, rfl⟩ := List.mem_map.1 hi
      obtain ⟨T, _, _, _, _, hlt, _⟩ := hM p hp
      exact hlt)
    rw [hnew]
    have W' := RC.core.wf
    have below : ∀ i, i < h.next → h'.flags i ≠ h.flags i → ∃ p ∈ M, Below h p.1 i := by
      intro i hi hne
      rcases flags i hi with e | ⟨_, j, j1, _, j3⟩
      · exact absurd e hne
      · obtain ⟨p, hp, rfl⟩ := hsub j j1
        exact ⟨p, hp, j3⟩
    -- items of the trees outside `M` keep everything
    have keep : ∀ q, h.par q = none → (∀ p ∈ M, p.1 ≠ q) → ∀ i, Below h q i → i < h.next → h'.flags i = h.flags i := by
      intro q hq hn i hi hlt
      apply Classical.byContradiction
      intro hne
      obtain ⟨p, hp, hb⟩ := below i hlt hne
      obtain ⟨T, _, _, _, hpar, _, _⟩ := hM p hp
      exact hn p hp (top_unique C.wf hpar hq hb hi)
    have old : ∀ i, i < h0.next → ∀ p ∈ M, ¬ Below h p.1 i := by
      intro i hi p hp hb
      obtain ⟨T, e1, _, r, _, _, hge⟩ := hM p hp
      have := hge i ((below_iff_ids r i).1 (by rw [e1]; exact hb))
      omega
    have U0 := o.same
    refine ⟨RC, ?_, fun F => fr (o.fresh F), ?_, ?_⟩
    · have lt : ∀ i, i < h0.next → i < h.next := fun i hi => Nat.lt_of_lt_of_le hi U0.next
      refine ⟨Nat.le_trans U0.next (Nat.le_of_lt hx), fun i hi => (data i (lt i hi)).1.trans (U0.tag i hi), fun i hi => (data i (lt i hi)).2.1.trans (U0.value i hi), fun i hi => ?_,
        fun i hi => (data i (lt i hi)).2.2.1.trans (U0.link i hi), fun i hi _ => (data i (lt i hi)).2.2.2.trans (U0.kids i hi id), fun i hi _ => ?_⟩
      · rw [← U0.flags i hi]
        apply Classical.byContradiction
        intro hne
        obtain ⟨p, hp, hb⟩ := below i (lt i hi) hne
        exact old i hi p hp hb
      · rw [par i (lt i hi), U0.par i hi id]
        intro hm
        obtain ⟨p, hp, rfl⟩ := hsub i hm
        exact old p.1 hi p hp .refl
    · simp only [List.map_cons, List.nodup_cons]
      refine ⟨fun hm => ?_, nd.2.1⟩
      obtain ⟨p, hp, e⟩ := List.mem_map.1 hm
      obtain ⟨T, _, _, _, _, hlt, _⟩ := hL p hp
      omega
    · intro p hp
      rcases List.mem_cons.1 hp with rfl | hp
      · refine ⟨.node h.next t v f lk Ts, rfl, ?_, R, pr, hx, ?_⟩
        · simp only [Tree.shape, shapeL_eq, Shape.node.injEq, true_and]
          apply List.ext_getElem
          · simp [len]
          · intro k h1 h2
            simp only [List.length_map] at h1 h2
            simp only [List.getElem_map]
            obtain ⟨T, e1, e2, r, hpar, hlt, hge⟩ := hM M[k] (List.getElem_mem h2)
            have m := made k (.item M[k].1) Ts[k] (by simp [h2]) (by simp [h1])
            have hns : Arg.item M[k].1 ∉ ((M.map Prod.fst).map Arg.item).take k := by
              intro hmem
              rw [← List.map_take] at hmem
              obtain ⟨y, hy, e⟩ := List.mem_map.1 hmem
              have e : y = M[k].1 := by simpa using e
              obtain ⟨j, hj, ej⟩ := List.mem_take_iff_getElem.1 hy
              have : (M.map Prod.fst)[j]'(by omega) = (M.map Prod.fst)[k]'(by simpa using h2) := by rw [ej, e]; simp
              have := (List.nodup_iff_injective_getElem.1 nd.1) (a₁ := ⟨j, by omega⟩) (a₂ := ⟨k, by simpa using h2⟩) this
              simp at this; omega
            simp only [MadeAt, hpar, hns, not_false_eq_true, and_self, if_true] at m
            rw [m.2, ← e1, r.tree C.wf, e2]
        · intro j hj
          have hge0 := U0.next
          simp only [Tree.ids_node, List.mem_cons, Tree.mem_idsL] at hj
          rcases hj with rfl | ⟨T', hT', hj⟩
          · exact hge0
          · obtain ⟨k, h1, rfl⟩ := List.mem_iff_getElem.1 hT'
            have h2 : k < M.length := by rw [len] at h1; simpa using h1
            obtain ⟨T, e1, e2, r, hpar, hlt, hge⟩ := hM M[k] (List.getElem_mem h2)
            have m := made k (.item M[k].1) Ts[k] (by simp [h2]) (by simp [h1])
            simp only [MadeAt] at m
            split at m
            · rw [m.1, ← e1, r.tree C.wf] at hj
              exact hge j hj
            · exact Nat.le_trans hge0 (m.1 j hj)
      · obtain ⟨T, e1, e2, r, hpar, hlt, hge⟩ := hL p hp
        have hne : ∀ q ∈ M, q.1 ≠ p.1 := fun q hq => nd.2.2 _ (List.mem_map_of_mem hq) _ (List.mem_map_of_mem hp)
        have il := r.ids_lt C.wf (by rw [e1]; exact hlt)
        refine ⟨T, e1, e2, r.congr fun i hi => ?_, ?_, Nat.lt_trans hlt hx, hge⟩
        · obtain ⟨d1, d2, d3, d4⟩ := data i (il i hi)
          exact ⟨d1, d2, keep p.1 hpar hne i (by rw [← e1]; exact (below_iff_ids r i).2 hi) (il i hi), d3, d4⟩
        · rw [par p.1 hlt, hpar]
          intro hm
          obtain ⟨q, hq, e⟩ := hsub _ hm
          exact hne q hq e

end ITree
