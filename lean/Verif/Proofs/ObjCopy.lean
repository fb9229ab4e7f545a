import Verif.Proofs.Objects
import Verif.Proofs.CopyLoop
/-
The copy loop with value objects: it is the copy of the tree whose values have been replaced by copies, one after the other in deep order.
-/
namespace ITree

mutual
/-- the values replaced by their copies, in deep order -/
def Tree.revalue (m : CopyMode) (s : Store) : Tree → Except Err (Store × Tree)
  | .node i t v f l ks => match copyValue m s v with
    | .error e => .error e
    | .ok r => match Tree.revalueL m r.1 ks with
      | .error e => .error e
      | .ok q => .ok (q.1, .node i t r.2 f l q.2)
def Tree.revalueL (m : CopyMode) (s : Store) : List Tree → Except Err (Store × List Tree)
  | [] => .ok (s, [])
  | k :: ks => match Tree.revalue m s k with
    | .error e => .error e
    | .ok r => match Tree.revalueL m r.1 ks with
      | .error e => .error e
      | .ok q => .ok (q.1, r.2 :: q.2)
end

theorem value_snap {h : Heap} {T : Tree} (R : Rep h T) : (h.node T.id).value = T.value := by
  obtain ⟨i, t, v, f, l, ks⟩ := T
  obtain ⟨_, hv, _⟩ := R
  exact hv

theorem copyNode_value (i : Id) (t : Tag) (v w : Val) (f : Flags) (l : Option LinkSt) (ks ks' : List Tree) :
    { copyNode (.node i t v f l ks) with value := w } = copyNode (.node i t w f l ks') := rfl

/-- the loop ends with exception `e` -/
def Breaks (m : CopyMode) (s : CopyStV) (e : Err) : Prop := ∃ t, Goes (copyLoopStepV m) s [] t ∧ copyLoopStepV m t = .fail e

def LoopSpecV (m : CopyMode) (ts : List Tree) : Prop := ∀ (h : Heap) (p : Id) (items : List Id) (st : List CFr) (s : Store), WF h → p < h.next → (∀ T ∈ ts, Rep h T) →
  (∀ i ∈ Tree.idsL ts, i < p) →
  match Tree.revalueL m s ts with
  | .ok r => Goes (copyLoopStepV m) ⟨⟨h, p :: items, .it (ts.map Tree.id) :: st⟩, s⟩ [] ⟨⟨buildKids h p r.2, p :: items, .it [] :: st⟩, r.1⟩
  | .error e => Breaks m ⟨⟨h, p :: items, .it (ts.map Tree.id) :: st⟩, s⟩ e

theorem Breaks.after {m : CopyMode} {s t : CopyStV} {e : Err} (g : Goes (copyLoopStepV m) s [] t) (b : Breaks m t e) : Breaks m s e := by
  obtain ⟨u, g', hu⟩ := b
  exact ⟨u, g.trans (o' := []) g', hu⟩

theorem revalueL_nil_iff {m : CopyMode} {s : Store} {ks : List Tree} {r} (h : Tree.revalueL m s ks = .ok r) : r.2 = [] ↔ ks = [] := by
  cases ks with
  | nil => simp only [Tree.revalueL, Except.ok.injEq] at h; subst h; simp
  | cons k ks =>
    simp only [Tree.revalueL] at h
    split at h
    · cases h
    · split at h
      · cases h
      · simp only [Except.ok.injEq] at h; subst h; simp

theorem loop_specV (m : CopyMode) (ts : List Tree) : LoopSpecV m ts := by
  refine Tree.rec_1 (motive_1 := fun T => LoopSpecV m T.kids) (motive_2 := LoopSpecV m) ?_ ?_ ?_ ts
  · intro i t v f l ks ih; exact ih
  · intro h p items st s W hp R hb
    exact Goes.refl _
  · intro T rest ihT ihR h p items st s W hp R hb
    have RT := R T (by simp)
    have eC := copyNode_snap RT
    have eV := value_snap RT
    have eK := RT.kids
    obtain ⟨i, t, v, f, l, ks⟩ := T
    simp only [Tree.kids, Tree.id, Tree.value] at eK eC eV ihT
    simp only [Tree.revalueL, Tree.revalue]
    cases ev : copyValue m s v with
    | error e => exact ⟨_, Goes.refl _, by simp only [copyLoopStepV, List.map_cons, Tree.id, eV, ev]⟩
    | ok r =>
      obtain ⟨s1, v1⟩ := r
      simp only
      obtain ⟨G1, k1, n1, _, _, _, _, kk1⟩ := alloc_append_spec W hp (copyNode (.node i t v1 f l ks)) rfl rfl rfl (copyNode_cover _)
      have hs : copyLoopStepV m ⟨⟨h, p :: items, .it ((Tree.node i t v f l ks :: rest).map Tree.id) :: st⟩, s⟩ =
          if ks.map Tree.id = [] then .more [] ⟨⟨appendItem (h.alloc (copyNode (.node i t v1 f l ks))).1 p h.next, p :: items, .it (rest.map Tree.id) :: st⟩, s1⟩
          else .more [] ⟨⟨appendItem (h.alloc (copyNode (.node i t v1 f l ks))).1 p h.next, h.next :: p :: items,
            .it (ks.map Tree.id) :: .none :: .it (rest.map Tree.id) :: st⟩, s1⟩ := by
        simp only [copyLoopStepV, List.map_cons, Tree.id, eC, eK, eV, ev, copyNode_value i t v v1 f l ks ks]; rfl
      have hbk : ∀ j ∈ Tree.idsL ks, j < p := fun j hj => hb j (by rw [Tree.idsL_cons, Tree.ids_node]; simp [hj])
      have hbr : ∀ j ∈ Tree.idsL rest, j < p := fun j hj => hb j (by rw [Tree.idsL_cons]; simp [hj])
      have Rk : ∀ T ∈ ks, Rep h T := fun T hT => RT.kid hT
      have Rr : ∀ T ∈ rest, Rep h T := fun T hT => R T (by simp [hT])
      have Rk1 := RepL.grow G1 Rk fun j hj => by have := hbk j hj; omega
      have Rr1 := RepL.grow G1 Rr fun j hj => by have := hbr j hj; omega
      have eb : ∀ ks', buildOne h p (.node i t v1 f l ks') = buildKids (appendItem (h.alloc (copyNode (.node i t v1 f l ks))).1 p h.next) h.next ks' := fun ks' => by
        simp only [buildOne]; rfl
      generalize hg1 : appendItem (h.alloc (copyNode (.node i t v1 f l ks))).1 p h.next = h1 at *
      have hk := ihT h1 h.next (p :: items) (.none :: .it (rest.map Tree.id) :: st) s1 G1.wf (by omega) Rk1 (fun j hj => by have := hbk j hj; omega)
      cases ek : Tree.revalueL m s1 ks with
      | error e =>
        rw [ek] at hk
        simp only at hk ⊢
        cases ks with
        | nil => cases ek
        | cons k ks => exact Breaks.after (Goes.one (by rw [hs]; rfl)) hk
      | ok q =>
        rw [ek] at hk
        simp only at hk ⊢
        obtain ⟨G2, _⟩ := buildKids_spec q.2 h1 h.next G1.wf (by omega)
        have hle := G2.frame.next
        have Rr2 := RepL.grow G2 Rr1 fun j hj => by have := hbr j hj; omega
        have run1 : Goes (copyLoopStepV m) ⟨⟨h, p :: items, .it ((Tree.node i t v f l ks :: rest).map Tree.id) :: st⟩, s⟩ []
            ⟨⟨buildKids h1 h.next q.2, p :: items, .it (rest.map Tree.id) :: st⟩, q.1⟩ := by
          cases ks with
          | nil =>
            simp only [Tree.revalueL, Except.ok.injEq] at ek
            subst ek
            exact Goes.one (by rw [hs]; simp [buildKids])
          | cons k ks =>
            refine Goes.cons (o := []) (by rw [hs]; rfl) ?_
            refine hk.trans (o' := []) ?_
            refine Goes.cons (o := []) rfl (Goes.cons (o := []) rfl (Goes.refl _))
        have hr := ihR (buildKids h1 h.next q.2) p items st q.1 G2.wf (by omega) Rr2 hbr
        cases er : Tree.revalueL m q.1 rest with
        | error e =>
          rw [er] at hr
          exact Breaks.after run1 hr
        | ok u =>
          rw [er] at hr
          simp only [buildKids, eb] at hr ⊢
          exact run1.trans (o' := []) hr

theorem iterCopyV_delivers {h : Heap} (W : WF h) {T : Tree} (RT : Rep h T) (hT : T.id < h.next) (m : CopyMode) (s : Store) :
    Delivers (fun n => iterCopyV m n h s T.id) (match T.revalue m s with
      | .ok r => .ok ((build h r.2).1, r.1, (build h r.2).2)
      | .error e => .error e) := by
  have hid := RT.ids_lt W hT
  have eC := copyNode_snap RT
  have eV := value_snap RT
  have eK := RT.kids
  obtain ⟨i, t, v, f, l, ks⟩ := T
  simp only [Tree.kids, Tree.id, Tree.value] at eK eC eV hT
  change Delivers (fun n => iterCopyV m n h s i) _
  unfold iterCopyV
  rw [eC, eV]
  simp only [Tree.revalue]
  cases ev : copyValue m s v with
  | error e => exact Delivers.const _
  | ok r =>
    obtain ⟨s1, v1⟩ := r
    simp only [copyNode_value i t v v1 f l ks ks]
    have e0 : (h.alloc (copyNode (.node i t v1 f l ks))).2 = h.next := rfl
    have hnx : (h.alloc (copyNode (.node i t v1 f l ks))).1.next = h.next + 1 := rfl
    have eb : ∀ ks', build h (.node i t v1 f l ks') = (buildKids (h.alloc (copyNode (.node i t v1 f l ks))).1 h.next ks', h.next) := fun ks' => rfl
    simp only [e0, eK]
    cases ks with
    | nil =>
      simp only [Tree.revalueL, eb, List.map_nil, if_true, buildKids]
      exact Delivers.const _
    | cons k ks =>
      have A := copyNode_alloc h (.node i t v1 f l (k :: ks))
      have U := A.frame
      have Rk : ∀ T ∈ (k :: ks), Rep (h.alloc (copyNode (.node i t v1 f l (k :: ks)))).1 T := fun T hT => (RT.kid hT).congr fun j hj => by
        have a : j < h.next := hid j (by rw [Tree.ids_node]; exact List.mem_cons_of_mem _ (Tree.mem_idsL.2 ⟨T, hT, hj⟩))
        exact ⟨U.tag j a, U.value j a, U.flags j a, U.link j a, U.kids j a id⟩
      have L := loop_specV m (k :: ks) (h.alloc (copyNode (.node i t v1 f l (k :: ks)))).1 h.next [] [] s1 (A.wf W) (by omega) Rk (fun j hj => hid j (by
          rw [Tree.ids_node]; exact List.mem_cons_of_mem _ hj))
      simp only [if_neg (show ¬ List.map Tree.id (k :: ks) = [] by simp)]
      cases er : Tree.revalueL m s1 (k :: ks) with
      | error e =>
        rw [er] at L
        obtain ⟨u, ⟨N, g⟩, hu⟩ := L
        refine ⟨N + 1, fun n hn => ?_⟩
        obtain ⟨j, rfl⟩ : ∃ j, n = (j + 1) + N := ⟨n - N - 1, by omega⟩
        simp only
        rw [g.gen, gen]
        simp only [hu, Option.map_some]
      | ok q =>
        rw [er] at L
        simp only at L ⊢
        have L2 := L.trans (o' := []) (Goes.one (o := []) (t := ⟨⟨_, _, []⟩, _⟩) rfl)
        rw [eb]
        exact (L2.finish rfl).map _

end ITree
