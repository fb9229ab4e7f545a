import Verif.Proofs.Build
/-
extend and the operations built on it.
-/
namespace ITree

theorem appendItem_node {h : Heap} {p x i : Id} (h1 : i ≠ p) (h2 : i ≠ x) : (appendItem h p x).node i = h.node i := by
  unfold appendItem
  split
  · simp [node_setParent, h1, h2]
  · simp [node_setParent, node_setFams, node_setItems, h1, h2]

theorem buildKids_node (ts : List Tree) : ∀ (h : Heap) (p i : Id), i < h.next → i ≠ p → (buildKids h p ts).node i = h.node i ∧
    h.next ≤ (buildKids h p ts).next := by
  refine Tree.rec_1 (motive_1 := fun T => ∀ (h : Heap) (p i : Id), i < h.next → i ≠ p → (buildKids h p T.kids).node i = h.node i ∧
    h.next ≤ (buildKids h p T.kids).next) (motive_2 := fun ts => ∀ (h : Heap) (p i : Id), i < h.next → i ≠ p → (buildKids h p ts).node i = h.node i ∧
    h.next ≤ (buildKids h p ts).next) ?_ ?_ ?_ ts
  · intro i t v f l ks ih; exact ih
  · intro h p i _ _; simp [buildKids, buildOne]
  · intro T rest ihT ihR h p i hi hp
    obtain ⟨a, t, v, f, l, ks⟩ := T
    simp only [buildKids, buildOne]
    have e0 : (h.alloc (copyNode (.node a t v f l ks))).2 = h.next := rfl
    rw [e0]
    have hn : (appendItem (h.alloc (copyNode (.node a t v f l ks))).1 p h.next).next = h.next + 1 := by
      unfold appendItem; split <;> rfl
    have hA : (appendItem (h.alloc (copyNode (.node a t v f l ks))).1 p h.next).node i = h.node i := by
      rw [appendItem_node hp (by omega)]; simp [Heap.alloc]; omega
    obtain ⟨b1, b2⟩ := ihT (appendItem (h.alloc (copyNode (.node a t v f l ks))).1 p h.next) h.next i (by omega) (by omega)
    simp only [Tree.kids] at b1 b2
    obtain ⟨c1, c2⟩ := ihR (buildKids (appendItem (h.alloc (copyNode (.node a t v f l ks))).1 p h.next) h.next ks) p i (by omega) hp
    exact ⟨c1.trans (b1.trans hA), by omega⟩

theorem build_node (h : Heap) (t : Tree) {i : Id} (hi : i < h.next) : (build h t).1.node i = h.node i := by
  simp only [build]
  have e0 : (h.alloc (copyNode t)).2 = h.next := rfl
  have hn : (h.alloc (copyNode t)).1.next = h.next + 1 := rfl
  rw [e0, (buildKids_node t.kids _ h.next i (by omega) (by omega)).1]
  simp [Heap.alloc]; omega

/-- the item that one round of `_iter_extend` puts into the list -/
def extPick (h : Heap) (a : Arg) : Heap × Id := match a with
  | .item x => if (h.node x).parent.isSome then copyItem h x else (h, x)
  | .val v => h.alloc { tag := .noTag, value := v }

/-- the three ways -/
structure PickSpec (h : Heap) (a : Arg) (h1 : Heap) (x : Id) : Prop where
  wf : WF h1
  unchanged : Unchanged h h1
  node : ∀ i, i < h.next → h1.node i = h.node i
  nz : NoZombie h → NoZombie h1
  forest : Forest h → Forest h1
  nocov : NoCover h → NoCover h1
  par : (h1.node x).parent = none
  lt : x < h1.next
  what : (∃ i, a = .item i ∧ h.par i = none ∧ x = i ∧ h1 = h) ∨
    (∃ i, a = .item i ∧ h.par i ≠ none ∧ CopySpec h h1 (h.tree i) x) ∨
    (∃ v, a = .val v ∧ AllocRel h h1 x { tag := .noTag, value := v })

theorem extPick_spec {h : Heap} (W : WF h) (a : Arg) (ha : ∀ i, a = .item i → i < h.next) : PickSpec h a (extPick h a).1 (extPick h a).2 := by
  unfold extPick
  split
  · next i =>
    split
    · next hp =>
      have C := copyItem_spec W i
      refine ⟨C.wf, C.unchanged, fun j hj => build_node h _ hj, C.nz, C.forest, C.nocov, C.par, C.lt, Or.inr (Or.inl ⟨i, rfl, ?_, C⟩)⟩
      simp only [Heap.par]
      cases hh : (h.node i).parent with
      | none => simp [hh] at hp
      | some r => simp
    · next hp =>
      have hp' : (h.node i).parent = none := by simpa using hp
      exact ⟨W, Frame.refl _ _ _, fun _ _ => rfl, id, id, id, hp', ha i rfl, Or.inl ⟨i, rfl, by simp [Heap.par, hp'], rfl, rfl⟩⟩
  · next v =>
    have A : AllocRel h (h.alloc { tag := .noTag, value := v }).1 (h.alloc { tag := .noTag, value := v }).2 { tag := .noTag, value := v } :=
      ⟨rfl, rfl, rfl, rfl, Or.inl rfl⟩
    refine ⟨A.wf W, A.frame, fun j hj => by simp [Heap.alloc]; omega, A.noZombie W, A.forest W, fun N => A.noCover N rfl, ?_, ?_,
      Or.inr (Or.inr ⟨v, rfl, A⟩)⟩
    · simp [Heap.alloc]
    · simp [Heap.alloc]

/-- one round attaches the picked item at the end -/
theorem extendOne_attach {h : Heap} (W : WF h) {p : Id} (hp : p < h.next) (hs : (h.node p).stale = none) (idx : Nat) (a : Arg)
    (ha : ∀ i, a = .item i → i < h.next) :
    AttachRel (extPick h a).1 (extendOne h p idx a) p (extPick h a).2 (h.kids p).length := by
  have P := extPick_spec W a ha
  have hres : extendOne h p idx a = (let h1 := (extPick h a).1; let x := (extPick h a).2
      let F := (h1.node p).fams.getD []
      ((h1.setFams p (F.set (h1.tag x) ((F.get? (h1.tag x)).getD [] ++ [x]))).setParent x (some ⟨p, idx, (famAppend F (h1.tag x) x).2, false⟩)).setItems p
        (h1.kids p ++ [x])) := by
    unfold extendOne
    dsimp only
    rw [famAppend_fst]
    simp only [kids_setParent, kids_setFams]
    cases a <;> rfl
  rw [hres]
  dsimp only
  have hk : (extPick h a).1.kids p = h.kids p := P.unchanged.kids p hp (fun h => h)
  have hst : ((extPick h a).1.node p).stale = none := by rw [P.node p hp]; exact hs
  have W1 := P.wf
  generalize (extPick h a).1 = h1 at *
  generalize (extPick h a).2 = x at *
  have hF : ∃ F, (h1.node p).fams.getD [] = F ∧ FamOK h1 p F := by
    by_cases e : h1.kids p = []
    · refine ⟨[], ?_, by simp, fun t => by simp [Fams.get?, famView, e]⟩
      cases hf : (h1.node p).fams with
      | none => rfl
      | some F => rw [W1.fams_nil p F e hf]; rfl
    · obtain ⟨F, h1, h2⟩ := W1.fams_ok p e; exact ⟨F, by rw [h1]; rfl, h2⟩
  obtain ⟨F, hF1, hO⟩ := hF
  rw [hF1]
  constructor
  · rfl
  · intro i; simp
  · intro i; simp
  · intro i; simp
  · intro i; simp
  · simp [← hk]
  · intro i e; simp [e]
  · exact ⟨(idx : Int), ((famAppend F (h1.tag x) x).2 : Int), by omega, by omega, by simp⟩
  · intro i e; simp [e]; exact PEq.refl _
  · simpa using hst
  · intro i e; simp
  · have hfo := famOK_insert (x := x) (F := F) (L := h1.kids p) (n := (h1.kids p).length) (tagOf := h1.tag) (Nat.le_refl _) hO.keys hO.get
      ((F.get? (h1.tag x)).getD [] ++ [x]) (by rw [hO.getD, List.take_length]; simp [famView])
    refine ⟨_, by simp, hfo.1, fun t => ?_⟩
    rw [hfo.2]
    simp [famView]
  · intro i e; simp [e]

/-- what became of argument number `j` -/
def ExtArg (h h' : Heap) (p : Id) (earlier : List Arg) (a : Arg) (x : Id) : Prop :=
  match a with
  | .val v => h.next ≤ x ∧ h'.tag x = .noTag ∧ (h'.node x).value = v ∧ h'.flags x = 0#6 ∧ h'.kids x = []
  | .item i =>
    (h.par i = none ∧ Arg.item i ∉ earlier → x = i) ∧
    (h.par i ≠ none ∨ Arg.item i ∈ earlier → h.next ≤ x ∧
      (Forest h' → ¬ Below h i p → ∃ T : Tree, T.id = x ∧ Rep h' T ∧ T.shape = (h.tree i).copyShape))

/-- the arguments are attached in order -/
structure ExtendSpec (h h' : Heap) (p : Id) (as : List Arg) (xs : List Id) : Prop where
  wf : WF h'
  frame : Frame h h' (· = p) (fun i => Arg.item i ∈ as)
  kids : h'.kids p = h.kids p ++ xs
  len : xs.length = as.length
  par : ∀ x ∈ xs, h'.par x = some p
  each : ∀ j a x, as[j]? = some a → xs[j]? = some x → ExtArg h h' p (as.take j) a x
  nz : NoZombie h → NoZombie h'
  forest : Forest h → (∀ i, Arg.item i ∈ as → h.par i = none → ¬ Below h i p) → Forest h'
  nocov : NoCover h → NoCover h'
  stale : as ≠ [] → (h'.node p).stale = none

theorem rep_of_tree {h : Heap} (W : WF h) (F : Forest h) (x : Id) : Rep h (h.tree x) ∧ (h.tree x).id = x := ⟨tree_rep W F x, tree_id h x⟩

/-- trees not containing the changed item survive -/
theorem tree_stable {h h' : Heap} {K P : Id → Prop} (W : WF h) (W' : WF h') (F : Forest h) (Fr : Frame h h' K P) {x : Id} (hx : x < h.next)
    (hb : ∀ i, Below h x i → ¬ K i) : Rep h' (h.tree x) ∧ h'.tree x = h.tree x ∧ ∀ i, Below h' x i ↔ Below h x i := by
  obtain ⟨R, e⟩ := rep_of_tree W F x
  have hids : ∀ i ∈ (h.tree x).ids, Below h x i := by
    intro i hi; have := (below_iff_ids R i).2 hi; rwa [e] at this
  have hlt := R.ids_lt W (by rw [e]; exact hx)
  have R' : Rep h' (h.tree x) := R.congr fun i hi =>
    ⟨Fr.tag i (hlt i hi), Fr.value i (hlt i hi), Fr.flags i (hlt i hi), Fr.link i (hlt i hi), Fr.kids i (hlt i hi) (hb i (hids i hi))⟩
  refine ⟨R', ?_, fun i => ?_⟩
  · have := R'.tree W'; rwa [e] at this
  · have a := below_iff_ids R i
    have b := below_iff_ids R' i
    rw [e] at a b
    exact b.trans a.symm

theorem extendLoop_spec {p : Id} : ∀ (as : List Arg) (h : Heap) (idx : Nat), WF h → p < h.next → (h.node p).stale = none →
    (∀ i, Arg.item i ∈ as → i < h.next) → ∃ xs, ExtendSpec h (extendLoop h p idx as) p as xs := by
  intro as
  induction as with
  | nil =>
    intro h idx W hp hs _
    refine ⟨[], W, Frame.refl _ _ _, by simp [extendLoop], rfl, by simp, by simp, id, fun F _ => F, id, by simp⟩
  | cons a as ih =>
    intro h idx W hp hs hlt
    simp only [extendLoop]
    have P := extPick_spec W a (fun i e => hlt i (by simp [e]))
    have A := extendOne_attach W hp hs idx a (fun i e => hlt i (by simp [e]))
    have hk : (extPick h a).1.kids p = h.kids p := P.unchanged.kids p hp (fun h => h)
    have hle : (h.kids p).length ≤ ((extPick h a).1.kids p).length := by rw [hk]
    have hn1 := P.unchanged.next
    have hn2 := A.next
    generalize hx : (extPick h a).2 = x at *
    generalize hh1 : (extPick h a).1 = h1 at *
    generalize hh2 : extendOne h p idx a = h2 at *
    have W2 : WF h2 := A.wf P.wf (by omega) P.lt hle P.par
    obtain ⟨xs, S⟩ := ih h2 (idx + 1) W2 (by omega) (A.stale_p) (fun i hi => by have := hlt i (by simp [hi]); omega)
    generalize hh3 : extendLoop h2 p (idx + 1) as = h3 at *
    have hn3 := S.frame.next
    have hk2 : h2.kids p = h.kids p ++ [x] := by rw [A.kids_p, hk]; simp
    -- the frame from h to h2
    have Fr : Frame h h2 (· = p) (fun i => a = Arg.item i ∧ h.par i = none) := by
      have f1 := P.unchanged
      have f2 := A.frame
      exact
      { next := by omega
        tag := fun i hi => (f2.tag i (by omega)).trans (f1.tag i hi)
        value := fun i hi => (f2.value i (by omega)).trans (f1.value i hi)
        flags := fun i hi => (f2.flags i (by omega)).trans (f1.flags i hi)
        link := fun i hi => (f2.link i (by omega)).trans (f1.link i hi)
        kids := fun i hi e => (f2.kids i (by omega) e).trans (f1.kids i hi (fun h => h))
        par := fun i hi e => by
          refine (f2.par i (by omega) ?_).trans (f1.par i hi (fun h => h))
          rintro rfl
          rcases P.what with ⟨j, h1, h2, h3, _⟩ | ⟨j, _, _, C⟩ | ⟨v, _, A⟩
          · exact e ⟨by rw [h3]; exact h1, by rw [h3]; exact h2⟩
          · have := C.root; omega
          · have := A.id; omega }
    -- parents in h2
    have hparx : h2.par x = some p := by rw [A.par', if_pos rfl]
    have hpar2 : ∀ i, i < h.next → (h2.par i = none ↔ h.par i = none ∧ a ≠ Arg.item i) := by
      intro i hi
      rw [A.par']
      rcases P.what with ⟨j, h1, h2, h3, h4⟩ | ⟨j, h1, h2, C⟩ | ⟨v, h1, A'⟩
      · subst h1 h3 h4
        by_cases e : i = x
        · simp [e]
        · have : ¬ (x = i) := fun e' => e e'.symm
          simp [e, this]
      · have hxr := C.root
        rw [if_neg (by omega), P.unchanged.par i hi (fun h => h)]
        constructor
        · intro hnone
          refine ⟨hnone, fun e => h2 ?_⟩
          rw [h1] at e; cases e; exact hnone
        · exact fun hh => hh.1
      · have hxr := A'.id
        rw [if_neg (by omega), P.unchanged.par i hi (fun h => h), h1]; simp
    have hForest2 : Forest h → (∀ i, Arg.item i ∈ a :: as → h.par i = none → ¬ Below h i p) → Forest h2 := by
      intro F hB
      refine A.forest hle (P.forest F) ?_
      rcases P.what with ⟨j, e1, e2, e3, e4⟩ | ⟨j, e1, e2, C⟩ | ⟨v, e1, A'⟩
      · subst e3 e4; exact hB x (by simp [e1]) e2
      · obtain ⟨T, t1, t2, t3, t4⟩ := C.rep
        intro b
        rw [← t1, below_iff_ids t2] at b
        have := t4 _ b; omega
      · have hkx : h1.kids x = [] := by rw [A'.kids W, A'.id]; exact (W.fresh _ (Nat.le_refl _)).1
        have hxr := A'.id
        intro b; have := below_leaf hkx b; omega
    refine ⟨x :: xs, S.wf, ?_, ?_, ?_, ?_, ?_, fun Z => S.nz (A.noZombie hle (P.nz Z)), ?_, fun N => S.nocov (A.noCover (P.nocov N)), ?_⟩
    · refine (Fr.mono (fun _ h => h) (fun i hi => ?_)).trans (S.frame.mono (fun _ h => h) (fun i hi => ?_))
      · simp [hi.1]
      · simp [hi]
    · rw [S.kids, hk2]; simp
    · simp [S.len]
    · intro y hy
      rcases List.mem_cons.1 hy with rfl | hy
      · have hxm : y ∈ h3.kids p := by rw [S.kids, hk2]; simp
        obtain ⟨r, r1, r2, _⟩ := S.wf.kid_parent p y hxm
        simp [Heap.par, r1, r2]
      · exact S.par y hy
    · intro j a' y ha hy
      cases j with
      | zero =>
        simp only [List.getElem?_cons_zero, Option.some.injEq] at ha hy
        subst ha hy
        have hxlt : x < h2.next := by rw [A.next]; exact P.lt
        rcases P.what with ⟨j, e1, e2, e3, e4⟩ | ⟨j, e1, e2, C⟩ | ⟨v, e1, A'⟩
        · subst e1
          simp only [ExtArg, List.take_zero]
          exact ⟨fun _ => e3, fun hh => by simp [e2] at hh⟩
        · subst e1
          simp only [ExtArg, List.take_zero]
          refine ⟨fun hh => (e2 hh.1).elim, fun _ => ⟨by rw [C.root], fun F3 hb => ?_⟩⟩
          obtain ⟨T, t1, t2, t3, t4⟩ := C.rep
          refine ⟨T, t1, ?_, t3⟩
          have T2 : Rep h2 T := t2.congr fun i hi =>
            ⟨A.tag i, A.value i, A.flags i, A.link i, A.kids_o i (by have := t4 i hi; omega)⟩
          exact T2.congr fun i hi => by
            have := t4 i hi
            exact ⟨S.frame.tag i (by omega), S.frame.value i (by omega), S.frame.flags i (by omega), S.frame.link i (by omega),
              S.frame.kids i (by omega) (by omega)⟩
        · subst e1
          simp only [ExtArg]
          have hxr := A'.id
          obtain ⟨e, _, _⟩ := A'
          have hnode : h1.node x = { tag := .noTag, value := v } := by rw [e, hxr]; simp [Heap.alloc]
          refine ⟨by omega, ?_, ?_, ?_, ?_⟩
          · rw [S.frame.tag _ hxlt, A.tag]; simp [Heap.tag, hnode]
          · rw [S.frame.value _ hxlt, A.value]; simp [hnode]
          · rw [S.frame.flags _ hxlt, A.flags]; simp [Heap.flags, hnode]
          · rw [S.frame.kids _ hxlt (by omega), A.kids_o _ (by omega)]; simp [Heap.kids, hnode]
      | succ j =>
        simp only [List.getElem?_cons_succ] at ha hy
        have := S.each j a' y ha hy
        cases a' with
        | val v => simp only [ExtArg] at this ⊢; exact ⟨by omega, this.2⟩
        | item i =>
          have hi : i < h.next := hlt i (by simp [List.mem_of_getElem? ha])
          simp only [ExtArg, List.take_succ_cons] at this ⊢
          refine ⟨fun hh => this.1 ⟨(hpar2 i hi).2 ⟨hh.1, fun e => hh.2 (by simp [e])⟩, fun e => hh.2 (by simp [e])⟩, fun hh => ?_⟩
          have : h2.next ≤ y ∧ (Forest h3 → ¬Below h2 i p → ∃ T : Tree, T.id = y ∧ Rep h3 T ∧ T.shape = (h2.tree i).copyShape) := by
            apply this.2
            by_cases hin : Arg.item i ∈ as.take j
            · right; exact hin
            · left
              intro hnone
              have := (hpar2 i hi).1 hnone
              rcases hh with hh | hh
              · exact hh this.1
              · rcases List.mem_cons.1 hh with e | e
                · exact this.2 e.symm
                · exact hin e
          refine ⟨by omega, fun F3 hb => ?_⟩
          have hF : Forest h := by
            -- children lists only grew
            refine F3.sub fun q c hc => ?_
            have hq := W.lt_of_kids (p := q) (by intro e; rw [e] at hc; simp at hc)
            by_cases e : q = p
            · subst e; rw [S.kids, hk2]; simp [hc]
            · rw [S.frame.kids q (by omega) e, Fr.kids q hq e]; exact hc
          obtain ⟨_, t2, t3⟩ := tree_stable W W2 hF Fr hi (fun q hq e => hb (by rw [← e]; exact hq))
          obtain ⟨T, g1, g2, g3⟩ := this.2 F3 (fun b => hb ((t3 p).1 b))
          exact ⟨T, g1, g2, by rw [g3, t2]⟩
    · intro F hB
      refine S.forest (hForest2 F hB) fun i hi hn => ?_
      have hi' : i < h.next := hlt i (by simp [hi])
      have hpn := ((hpar2 i hi').1 hn).1
      have hb := hB i (by simp [hi]) hpn
      obtain ⟨_, _, t3⟩ := tree_stable W W2 F Fr hi' (fun q hq e => hb (by rw [← e]; exact hq))
      exact fun b => hb ((t3 p).1 b)
    · intro _
      have hne : h3.kids p ≠ [] := by rw [S.kids, hk2]; simp
      exact S.wf.stale_none p hne

end ITree
