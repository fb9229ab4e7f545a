import Verif.Model.DeepMut
import Verif.Proofs.Gen
import Verif.Proofs.Deep
import Verif.Spec.SortDeep
import Verif.Props.Reorder
/-
Lemmas on the recursive in-depth calls.
-/
namespace ITree

/-- what one recursive call is known to do to the tree below its item -/
def Does (ms : ModelSet) (f : Heap → Id → Res Unit) (g : Tree → Tree) (T : Tree) : Prop :=
  ∀ h, Reach ms h → Rep h T → (∀ i ∈ T.ids, i < h.next) → (∀ i ∈ T.ids, h.isProtected i = false) →
    ∃ h', f h T.id = (h', .ok ()) ∧ Reach ms h' ∧ Rep h' (g T) ∧ Frame h h' (· ∈ T.ids) (fun _ => False)

theorem forEach_does {ms : ModelSet} {f : Heap → Id → Res Unit} {g : Tree → Tree} : ∀ (ts : List Tree), (∀ T ∈ ts, Does ms f g T) → (∀ T ∈ ts, (g T).ids.Perm T.ids) →
    (Tree.idsL ts).Nodup → ∀ h, Reach ms h → (∀ T ∈ ts, Rep h T) → (∀ i ∈ Tree.idsL ts, i < h.next) → (∀ i ∈ Tree.idsL ts, h.isProtected i = false) →
    ∃ h', forEach f h (ts.map Tree.id) = (h', .ok ()) ∧ Reach ms h' ∧ (∀ T ∈ ts, Rep h' (g T)) ∧ Frame h h' (· ∈ Tree.idsL ts) (fun _ => False)
  | [], _, _, _, h, R, _, _, _ => ⟨h, rfl, R, by simp, Frame.refl _ _ _⟩
  | T :: ts, D, G, N, h, R, hR, hlt, hp => by
    rw [Tree.idsL_cons, List.nodup_append] at N
    obtain ⟨h1, e1, R1, T1, F1⟩ := D T (by simp) h R (hR T (by simp)) (fun i hi => hlt i (by rw [Tree.idsL_cons]; simp [hi]))
      (fun i hi => hp i (by rw [Tree.idsL_cons]; simp [hi]))
    have hsub : ∀ i, i ∈ Tree.idsL ts → i < h.next := fun i hi => hlt i (by rw [Tree.idsL_cons]; simp [hi])
    obtain ⟨h2, e2, R2, T2, F2⟩ := forEach_does ts (fun S hS => D S (by simp [hS])) (fun S hS => G S (by simp [hS])) N.2.1 h1 R1
      (fun S hS => by
        refine (hR S (by simp [hS])).congr fun i hi => ?_
        have hi' : i ∈ Tree.idsL ts := Tree.mem_idsL.2 ⟨S, hS, hi⟩
        have hl := hsub i hi'
        exact ⟨F1.tag i hl, F1.value i hl, F1.flags i hl, F1.link i hl, F1.kids i hl fun h => N.2.2 i h i hi' rfl⟩)
      (fun i hi => Nat.lt_of_lt_of_le (hsub i hi) F1.next)
      (fun i hi => by
        have := hp i (by rw [Tree.idsL_cons]; simp [hi])
        simp only [Heap.isProtected] at this ⊢
        rw [F1.flags i (hsub i hi)]; exact this)
    refine ⟨h2, ?_, R2, fun S hS => ?_, ?_⟩
    · simp only [List.map_cons, forEach, e1]; exact e2
    · rcases List.mem_cons.1 hS with rfl | hS
      · refine T1.congr fun i hi => ?_
        have hi := (G S (by simp)).mem_iff.1 hi
        have hl := Nat.lt_of_lt_of_le (hlt i (by rw [Tree.idsL_cons]; simp [hi])) F1.next
        exact ⟨F2.tag i hl, F2.value i hl, F2.flags i hl, F2.link i hl, F2.kids i hl fun h => N.2.2 i hi i h rfl⟩
      · exact T2 S hS
    · rw [Tree.idsL_cons]
      exact (F1.mono (fun i h => by simp [h]) (fun _ h => h)).trans (F2.mono (fun i h => by simp [h]) (fun _ h => h))

theorem mirror_ids : ∀ T : Tree, T.mirror.ids.Perm T.ids := by
  intro T
  induction T using Tree.ind with
  | H i t v f l ks ih =>
    simp only [Tree.mirror, Tree.ids_node]
    refine List.Perm.cons _ ?_
    induction ks with
    | nil => simp [Tree.mirrorL]
    | cons k ks ihk =>
      have h1 : ∀ a b : List Tree, Tree.idsL (a ++ b) = Tree.idsL a ++ Tree.idsL b := by
        intro a b; simp [Tree.idsL, preL_eq]
      rw [Tree.mirrorL, h1, Tree.idsL_cons k ks]
      refine (List.perm_append_comm).trans (List.Perm.append ?_ (ihk fun k' h' => ih k' (by simp [h'])))
      rw [Tree.idsL_cons, Tree.idsL_nil, List.append_nil]
      exact ih k (by simp)

theorem deepReverse_does (ms : ModelSet) : ∀ (T : Tree) (n : Nat), T.depth ≤ n → T.ids.Nodup → Does ms (deepReverse n) Tree.mirror T := by
  intro T
  induction T using Tree.ind with
  | H i t v f l ks ih =>
    intro n hn N h R RT hlt hp
    obtain ⟨n, rfl⟩ : ∃ m, n = m + 1 := ⟨n - 1, by simp only [Tree.depth] at hn; omega⟩
    have hi : i ∈ (Tree.node i t v f l ks).ids := by simp [Tree.ids_node]
    have hpr := hp i hi
    have hk : h.kids i = ks.map Tree.id := RT.kids
    by_cases hne : h.kids i = []
    · have hks : ks = [] := by rw [hne] at hk; simpa using hk.symm
      subst hks
      refine ⟨h, ?_, R, by simpa [Tree.mirror, Tree.mirrorL] using RT, Frame.refl _ _ _⟩
      simp only [deepReverse, Tree.id, guardReorder_ok hpr, hne]; rfl
    · obtain ⟨h1, a, b, c, _, _⟩ := C13_reverse_partial R hpr hne
      have R1 : Reach ms h1 := by
        have := R.step (.reverse i) trivial
        simp only [step, a] at this; exact this
      rw [Tree.ids_node, List.nodup_cons] at N
      have hrevids : (Tree.idsL ks.reverse).Perm (Tree.idsL ks) := by
        simp only [Tree.idsL, preL_eq]
        exact ((List.reverse_perm ks).flatMap_right _).map _
      have hltk : ∀ j ∈ Tree.idsL ks, j < h.next := fun j hj => hlt j (by rw [Tree.ids_node]; simp [hj])
      have hids : ∀ {k}, k ∈ ks → k.ids.Nodup := by
        intro k hk'
        have := N.2
        simp only [Tree.idsL, preL_eq, List.map_flatMap, List.nodup_flatMap] at this
        exact this.1 k hk'
      obtain ⟨h2, e2, R2, T2, F2⟩ := forEach_does (ms := ms) (f := deepReverse n) (g := Tree.mirror) ks.reverse
        (fun k hk' => ih k (List.mem_reverse.1 hk') n (by
          have := depth_le_depthL (List.mem_reverse.1 hk'); simp only [Tree.depth] at hn; omega) (hids (List.mem_reverse.1 hk')))
        (fun k _ => mirror_ids k) (hrevids.nodup_iff.2 N.2) h1 R1
        (fun k hk' => by
          have hk' := List.mem_reverse.1 hk'
          refine (RT.kid hk').congr fun j hj => ?_
          have hj' : j ∈ Tree.idsL ks := Tree.mem_idsL.2 ⟨k, hk', hj⟩
          have hl := hltk j hj'
          exact ⟨c.tag j hl, c.value j hl, c.flags j hl, c.link j hl, c.kids j hl fun e => N.1 (e ▸ hj')⟩)
        (fun j hj => Nat.lt_of_lt_of_le (hltk j (hrevids.mem_iff.1 hj)) c.next)
        (fun j hj => by
          have hj' := hrevids.mem_iff.1 hj
          have := hp j (by rw [Tree.ids_node]; simp [hj'])
          simp only [Heap.isProtected] at this ⊢
          rw [c.flags j (hltk j hj')]; exact this)
      have hb : h1.kids i = ks.reverse.map Tree.id := by rw [b, hk, List.map_reverse]
      refine ⟨h2, ?_, R2, ?_, ?_⟩
      · simp only [deepReverse, Tree.id, guardReorder_ok hpr, a, List.isEmpty_iff, hne, if_false, hb]; exact e2
      · have hil := hlt i hi
        have hil1 := Nat.lt_of_lt_of_le hil c.next
        have hni : i ∉ Tree.idsL ks.reverse := fun h => N.1 (hrevids.mem_iff.1 h)
        simp only [Tree.mirror, Rep, mirrorL_eq, repL_iff] at RT ⊢
        refine ⟨(F2.tag i hil1).trans ((c.tag i hil).trans RT.1), (F2.value i hil1).trans ((c.value i hil).trans RT.2.1),
          (F2.flags i hil1).trans ((c.flags i hil).trans RT.2.2.1), (F2.link i hil1).trans ((c.link i hil).trans RT.2.2.2.1), ?_, ?_⟩
        · rw [F2.kids i hil1 hni, hb, ← List.map_reverse, List.map_map]
          apply List.map_congr_left
          intro k _; exact (mirror_id k).symm
        · intro k hk'
          rw [← List.map_reverse] at hk'
          obtain ⟨k0, hk0, rfl⟩ := List.mem_map.1 hk'
          exact T2 k0 hk0
      · refine (c.mono (fun j e => by rw [e, Tree.ids_node]; simp) (fun _ h => h)).trans (F2.mono (fun j hj => ?_) (fun _ h => h))
        rw [Tree.ids_node]; exact List.mem_cons_of_mem _ (hrevids.mem_iff.1 hj)

/-! ### deep.sort -/

theorem SortedDeep.congr_kids {K : Shape → Int} {rev : Bool} {t v f l} {ks ls ks' : List Shape} (h1 : ls.Perm ks)
    (h2 : ls.Pairwise fun a b => if rev then K b ≤ K a else K a ≤ K b) (h3 : ∀ k, ls.filter (fun c => K c = k) = ks.filter fun c => K c = k)
    (h4 : List.Forall₂ (SortedDeep K rev) ls ks') : SortedDeep K rev (.node t v f l ks) (.node t v f l ks') := .node h1 h2 h3 h4

theorem Rep.below_lt {h : Heap} (W : WF h) {x : Id} (hx : x < h.next) {y : Id} (b : Below h x y) : y < h.next := by
  induction b with
  | refl => exact hx
  | step _ hc _ => exact W.kids_lt _ _ hc

/-- a tree in a later heap is the same when its items are the same -/
theorem tree_same {h h' : Heap} (C : Core h) (W' : WF h') {x : Id} (H : ∀ i, Below h x i → h'.tag i = h.tag i ∧ (h'.node i).value = (h.node i).value ∧
    h'.flags i = h.flags i ∧ (h'.node i).link = (h.node i).link ∧ h'.kids i = h.kids i) : h'.tree x = h.tree x := by
  obtain ⟨R, e⟩ := rep_of_tree C.wf C.forest x
  have R' : Rep h' (h.tree x) := R.congr fun i hi => H i (by have := (below_iff_ids R i).2 hi; rwa [e] at this)
  have := R'.tree W'
  rwa [e] at this

/-- the trees below items other than `x` (and not above it) survive a change at `x` -/
theorem tree_frame {h h' : Heap} (C : Core h) (W' : WF h') {S : Id → Prop} (F : Frame h h' S (fun _ => False)) {y : Id} (hy : y < h.next)
    (hn : ∀ i, Below h y i → ¬ S i) : h'.tree y = h.tree y := by
  refine tree_same C W' fun i hi => ?_
  have hl := Rep.below_lt C.wf hy hi
  exact ⟨F.tag i hl, F.value i hl, F.flags i hl, F.link i hl, F.kids i hl (hn i hi)⟩

theorem depth_shape : ∀ {T S : Tree}, T.shape = S.shape → T.depth = S.depth := by
  intro T
  induction T using Tree.ind with
  | H i t v f l ks ih =>
    intro S e
    obtain ⟨i', t', v', f', l', ks'⟩ := S
    simp only [Tree.shape, Shape.node.injEq, shapeL_eq] at e
    simp only [Tree.depth]
    have hk := e.2.2.2.2
    clear e
    congr 1
    induction ks generalizing ks' with
    | nil => cases ks' <;> simp at hk ⊢
    | cons k ks ihk =>
      cases ks' with
      | nil => simp at hk
      | cons k' ks' =>
        simp only [List.map_cons, List.cons.injEq] at hk
        simp only [Tree.depthL]
        rw [ih k (by simp) hk.1, ihk (fun a ha => ih a (by simp [ha])) ks' hk.2]

theorem free_copy : ∀ {T : Tree}, T.shape.Free → T.copyShape = T.shape := by
  intro T
  induction T using Tree.ind with
  | H i t v f l ks ih =>
    intro h
    simp only [Tree.shape, Tree.copyShape, shapeL_eq, copyShapeL_eq] at h ⊢
    cases h with
    | node hf hk =>
      have : copyLink (.node i t v f none ks) = none := by
        unfold copyLink; split <;> simp [Tree.link]
      rw [this]
      congr 1
      apply List.map_congr_left
      intro k hk'
      exact ih k hk' (hk _ (List.mem_map_of_mem hk'))

theorem free_kid {T k : Tree} (h : T.shape.Free) (hk : k ∈ T.kids) : k.shape.Free := by
  obtain ⟨i, t, v, f, l, ks⟩ := T
  simp only [Tree.shape, shapeL_eq] at h
  cases h with
  | node hf hk' => exact hk' _ (List.mem_map_of_mem hk)

theorem tree_data (h : Heap) (C : Core h) (x : Id) : h.tree x = .node x (h.tag x) (h.node x).value (h.flags x) (h.node x).link ((h.kids x).map h.tree) := by
  obtain ⟨R, e⟩ := rep_of_tree C.wf C.forest x
  have hk := R.kids
  have hK : ∀ k ∈ (h.tree x).kids, h.tree k.id = k := fun k hk' => (R.kid hk').tree C.wf
  generalize h.tree x = T at *
  obtain ⟨i, t, v, f, l, ks⟩ := T
  simp only [Tree.id] at e hk
  subst e
  simp only [Rep] at R
  obtain ⟨r1, r2, r3, r4, r5, r6⟩ := R
  simp only [Tree.kids] at hK hk
  rw [r1, r2, r3, r4, hk]
  congr 1
  rw [List.map_map]
  symm
  apply map_id_of
  intro k hk'
  exact hK k hk'

def SortsTree (ms : ModelSet) (K : Shape → Int) (rev : Bool) (f : Heap → Id → Res Unit) (n : Nat) : Prop :=
  ∀ h x, Reach ms h → x < h.next → (h.tree x).depth ≤ n → (h.tree x).shape.Free →
    ∃ h', f h x = (h', .ok ()) ∧ Reach ms h' ∧ SortedDeep K rev (h.tree x).shape (h'.tree x).shape ∧ Frame h h' (· = x) (fun _ => False)

theorem forEach_sorts {ms : ModelSet} {K : Shape → Int} {rev : Bool} {f : Heap → Id → Res Unit} {n : Nat} (D : SortsTree ms K rev f n) {p : Id} :
    ∀ (todo : List Id) (h : Heap), Reach ms h → p < h.next → todo.Nodup → (∀ c ∈ todo, c ∈ h.kids p) → (∀ c ∈ todo, (h.tree c).depth ≤ n) →
      (∀ c ∈ todo, (h.tree c).shape.Free) →
    ∃ h', forEach f h todo = (h', .ok ()) ∧ Reach ms h' ∧ Frame h h' (· ∈ todo) (fun _ => False) ∧
      ∀ c ∈ todo, SortedDeep K rev (h.tree c).shape (h'.tree c).shape
  | [], h, R, _, _, _, _, _ => ⟨h, rfl, R, Frame.refl _ _ _, by simp⟩
  | c :: r, h, R, hp, N, hk, hd, hf => by
    have C := R.core
    rw [List.nodup_cons] at N
    have hc := hk c (by simp)
    have hcl := C.wf.kids_lt p c hc
    obtain ⟨h1, e1, R1, S1, F1⟩ := D h c R hcl (hd c (by simp)) (hf c (by simp))
    have C1 := R1.core
    have hpc : p ≠ c := by rintro rfl; exact C.forest.irrefl hc .refl
    have hk1 : h1.kids p = h.kids p := F1.kids p hp hpc
    have hsame : ∀ d ∈ r, h1.tree d = h.tree d := by
      intro d hd'
      refine tree_frame C C1.wf F1 (C.wf.kids_lt p d (hk d (by simp [hd']))) fun i hi e => ?_
      subst e
      exact sibling_disjoint C.wf C.forest hc (hk d (by simp [hd'])) (fun e => N.1 (e ▸ hd')) .refl hi
    obtain ⟨h2, e2, R2, F2, S2⟩ := forEach_sorts D r h1 R1 (Nat.lt_of_lt_of_le hp F1.next) N.2
      (fun d hd' => by rw [hk1]; exact hk d (by simp [hd'])) (fun d hd' => by rw [hsame d hd']; exact hd d (by simp [hd']))
      (fun d hd' => by rw [hsame d hd']; exact hf d (by simp [hd']))
    refine ⟨h2, ?_, R2, ?_, fun d hd' => ?_⟩
    · simp only [forEach, e1]; exact e2
    · exact (F1.mono (fun i h => by simp [h]) (fun _ h => h)).trans (F2.mono (fun i h => by simp [h]) (fun _ h => h))
    · rcases List.mem_cons.1 hd' with rfl | hd'
      · have : h2.tree d = h1.tree d := by
          refine tree_frame C1 R2.core.wf F2 (Nat.lt_of_lt_of_le hcl F1.next) fun i hi hir => ?_
          exact sibling_disjoint C1.wf C1.forest (p := p) (a := d) (b := i) (by rw [hk1]; exact hc) (by rw [hk1]; exact hk i (by simp [hir]))
            (fun e => N.1 (e ▸ hir)) hi .refl
        rw [this]; exact S1
      · have := S2 d hd'
        rwa [hsame d hd'] at this

theorem forall2_getElem {α β} {R : α → β → Prop} : ∀ {l : List α} {m : List β}, l.length = m.length →
    (∀ (j : Nat) a b, l[j]? = some a → m[j]? = some b → R a b) → List.Forall₂ R l m
  | [], [], _, _ => .nil
  | [], _ :: _, e, _ => by simp at e
  | _ :: _, [], e, _ => by simp at e
  | a :: l, b :: m, e, H => .cons (H 0 a b rfl rfl) (forall2_getElem (by simpa using e) fun j a' b' ha hb => H (j + 1) a' b' (by simpa using ha) (by simpa using hb))

theorem deepSort_sorts (ms : ModelSet) (K : Shape → Int) (rev : Bool) : ∀ n, SortsTree ms K rev (deepSort (fun h c => K (h.tree c).shape) rev n) n := by
  intro n
  induction n with
  | zero =>
    intro h x R hx hd
    exfalso
    have := tree_data h R.core x
    rw [this] at hd
    simp [Tree.depth] at hd
  | succ n ih =>
    intro h x R hx hd hf
    have C := R.core
    have hT := tree_data h C x
    have hpr : h.isProtected x = false := by
      rw [hT] at hf
      simp only [Tree.shape] at hf
      generalize (h.node x).link = lk at hf
      cases hf with
      | node hf _ => exact hf
    obtain ⟨h1, l, xs, e1, hperm, hsorted, hstable, hkids, hlen, hcopies, F1, _⟩ := C15_sort_partial R hx hpr (fun c => K (h.tree c).shape) rev
    have R1 : Reach ms h1 := by
      have := R.step (.sort x (fun c => K (h.tree c).shape) rev) hx
      simp only [step, e1] at this; exact this
    have C1 := R1.core
    have hfk : ∀ c ∈ h.kids x, (h.tree c).shape.Free := fun c hc =>
      free_kid hf (by rw [hT]; exact List.mem_map_of_mem hc)
    have hdk : ∀ c ∈ h.kids x, (h.tree c).depth ≤ n := by
      intro c hc
      rw [hT] at hd
      simp only [Tree.depth] at hd
      have := depth_le_depthL (List.mem_map_of_mem (f := h.tree) hc)
      omega
    have hcp : ∀ (j : Nat) (c y : Id), l[j]? = some c → xs[j]? = some y → (h1.tree y).shape = (h.tree c).shape := by
      intro j c y hc hy
      obtain ⟨T, rfl, RT, hs⟩ := hcopies j c y hc hy
      rw [RT.tree C1.wf, hs, free_copy (hfk c (hperm.mem_iff.1 (List.mem_of_getElem? hc)))]
    have hback : ∀ y ∈ xs, ∃ c ∈ h.kids x, (h1.tree y).shape = (h.tree c).shape := by
      intro y hy
      obtain ⟨j, hj, e⟩ := List.getElem_of_mem hy
      have hj' : j < l.length := by omega
      exact ⟨l[j], hperm.mem_iff.1 (List.getElem_mem hj'), hcp j _ _ (List.getElem?_eq_getElem hj') (by rw [← e]; exact List.getElem?_eq_getElem hj)⟩
    obtain ⟨h2, e2, R2, F2, S2⟩ := forEach_sorts ih (p := x) xs h1 R1 (Nat.lt_of_lt_of_le hx F1.next) (by rw [← hkids]; exact C1.wf.kids_nodup x)
      (fun c hc => by rw [hkids]; exact hc)
      (fun c hc => by obtain ⟨d, hd', e⟩ := hback c hc; rw [depth_shape e]; exact hdk d hd')
      (fun c hc => by obtain ⟨d, hd', e⟩ := hback c hc; rw [e]; exact hfk d hd')
    have hxx : x ∉ xs := by
      intro hh
      rw [← hkids] at hh
      exact C1.forest.irrefl hh .refl
    have hx1 := Nat.lt_of_lt_of_le hx F1.next
    have hkx : h2.kids x = xs := by rw [F2.kids x hx1 hxx, hkids]
    refine ⟨h2, ?_, R2, ?_, ?_⟩
    · simp only [deepSort, guardReorder_ok hpr, e1, hkids]; exact e2
    · rw [hT, tree_data h2 R2.core x, hkx, F2.tag x hx1, F2.value x hx1, F2.flags x hx1, F2.link x hx1, F1.tag x hx, F1.value x hx, F1.flags x hx, F1.link x hx]
      simp only [Tree.shape, shapeL_eq, List.map_map]
      refine .node (ls := l.map fun c => (h.tree c).shape) (hperm.map _) ?_ ?_ ?_
      · rw [List.pairwise_map]; exact hsorted
      · intro k
        have := congrArg (List.map fun c => (h.tree c).shape) (hstable k)
        simpa [List.filter_map, Function.comp_def] using this
      · refine forall2_getElem (by simp [hlen]) fun j a b ha hb => ?_
        simp only [List.getElem?_map, Option.map_eq_some_iff] at ha hb
        obtain ⟨c, hc, rfl⟩ := ha
        obtain ⟨y, hy, rfl⟩ := hb
        have := S2 y (List.mem_of_getElem? hy)
        rwa [hcp j c y hc hy] at this
    · have hfresh : ∀ y ∈ xs, h.next ≤ y := by
        obtain ⟨h1', e1', hf', _⟩ := C15_sort_replaces R hx hpr (fun c => K (h.tree c).shape) rev
        rw [e1] at e1'
        obtain rfl : h1 = h1' := by simpa using e1'
        intro y hy; exact hf' y (by rw [hkids]; exact hy)
      have up : ∀ {i}, i < h.next → i < h1.next := fun hi => Nat.lt_of_lt_of_le hi F1.next
      exact ⟨Nat.le_trans F1.next F2.next, fun i hi => (F2.tag i (up hi)).trans (F1.tag i hi), fun i hi => (F2.value i (up hi)).trans (F1.value i hi),
        fun i hi => (F2.flags i (up hi)).trans (F1.flags i hi), fun i hi => (F2.link i (up hi)).trans (F1.link i hi),
        fun i hi hn => (F2.kids i (up hi) fun hm => by have := hfresh i hm; omega).trans (F1.kids i hi hn),
        fun i hi hn => (F2.par i (up hi) hn).trans (F1.par i hi hn)⟩

end ITree
