import Verif.Proofs.Local
/-
append, appendleft and insert as attachments.
-/
namespace ITree

theorem famAppend_fst (F : Fams) (t : Tag) (x : Id) : (famAppend F t x).1 = F.set t ((F.get? t).getD [] ++ [x]) := by
  unfold famAppend; split <;> next h => simp [h]

theorem FamOK.getD {h : Heap} {p : Id} {F : Fams} (O : FamOK h p F) (t : Tag) : (F.get? t).getD [] = famView h p t := by
  rw [O.get]; split
  · next e => simp [e]
  · rfl

/-- `_append_item` puts the item at the end -/
theorem appendItem_attach {h : Heap} (W : WF h) {p x : Id} (hxp : (h.node x).parent = none) :
    AttachRel h (appendItem h p x) p x (h.kids p).length := by
  have hxk := W.not_child hxp
  by_cases hk : h.kids p = []
  · have hres : appendItem h p x = (h.modify p fun n => { n with items := [x], fams := some [(h.tag x, [x])], stale := none }).setParent x
        (some ⟨p, 0, 0, false⟩) := by unfold appendItem; simp only [hk]
    have hkids : ∀ i, (appendItem h p x).kids i = if i = p then [x] else h.kids i := by
      intro i; rw [hres, kids_setParent]; simp only [Heap.kids, node_modify]; split <;> rfl
    have htag : ∀ i, (appendItem h p x).tag i = h.tag i := by
      intro i; rw [hres, tag_setParent]; simp only [Heap.tag, node_modify]; split <;> rfl
    constructor
    · rw [hres]; rfl
    · exact htag
    · intro i; rw [hres, value_setParent, node_modify]; split <;> rfl
    · intro i; rw [hres, flags_setParent]; simp only [Heap.flags, node_modify]; split <;> rfl
    · intro i; rw [hres, link_setParent, node_modify]; split <;> rfl
    · rw [hkids, hk]; simp
    · intro i e; rw [hkids, if_neg e]
    · exact ⟨0, 0, by omega, by omega, by rw [hres, parent_setParent, if_pos rfl]⟩
    · intro i e; rw [hres, parent_setParent, if_neg e, node_modify]; split <;> exact PEq.refl _
    · rw [hres, stale_setParent, node_modify, if_pos rfl]
    · intro i e; rw [hres, stale_setParent, node_modify, if_neg e]
    · refine ⟨[(h.tag x, [x])], by rw [hres, fams_setParent, node_modify, if_pos rfl], by simp, fun t => ?_⟩
      simp only [famView, hkids, htag, if_true, Fams.get?, List.lookup_cons, List.filter_cons, List.filter_nil]
      by_cases e : h.tag x = t
      · subst e; simp
      · have : (t == h.tag x) = false := by simpa using fun e' => e e'.symm
        simp [e, this]
    · intro i e; rw [hres, fams_setParent, node_modify, if_neg e]
  · obtain ⟨F, hb, hf, hO⟩ := W.bound hk
    have hres : appendItem h p x = ((h.setItems p (h.kids p ++ [x])).setFams p (F.set (h.tag x) ((F.get? (h.tag x)).getD [] ++ [x]))).setParent x
        (some ⟨p, (h.kids p).length, (famAppend F (h.tag x) x).2, false⟩) := by
      unfold appendItem
      split
      · next e => exact (hk e).elim
      · simp only [hb, Option.getD_some, famAppend_fst]
    have hkids : ∀ i, (appendItem h p x).kids i = if i = p then h.kids p ++ [x] else h.kids i := by
      intro i; rw [hres]; simp
    have htag : ∀ i, (appendItem h p x).tag i = h.tag i := by intro i; rw [hres]; simp
    constructor
    · rw [hres]; rfl
    · exact htag
    · intro i; rw [hres]; simp
    · intro i; rw [hres]; simp
    · intro i; rw [hres]; simp
    · rw [hkids, if_pos rfl]; simp
    · intro i e; rw [hkids, if_neg e]
    · exact ⟨((h.kids p).length : Int), ((famAppend F (h.tag x) x).2 : Int), by omega, by omega, by rw [hres, parent_setParent, if_pos rfl]⟩
    · intro i e; rw [hres]; simp [e]; exact PEq.refl _
    · rw [hres]; simpa using W.stale_none p hk
    · intro i e; rw [hres]; simp
    · have hfo := famOK_insert (x := x) (F := F) (L := h.kids p) (n := (h.kids p).length) (tagOf := h.tag) (Nat.le_refl _) hO.keys hO.get
        ((F.get? (h.tag x)).getD [] ++ [x]) (by rw [hO.getD, List.take_length]; simp [famView])
      refine ⟨_, by rw [hres]; simp, hfo.1, fun t => ?_⟩
      rw [hfo.2]
      have : famView (appendItem h p x) p t = ((h.kids p).insertIdx (h.kids p).length x).filter fun c => h.tag c = t := by
        simp only [famView, hkids, htag, if_true]; simp
      rw [this]
    · intro i e; rw [hres]; simp [e]

/-- `_append_item_left` puts the item at the front -/
theorem appendItemLeft_attach {h : Heap} (W : WF h) {p x : Id} (hk : h.kids p ≠ []) :
    AttachRel h (appendItemLeft h p x) p x 0 := by
  obtain ⟨F, hb, hf, hO⟩ := W.bound hk
  have hres : appendItemLeft h p x = ((h.setItems p (x :: h.kids p)).setFams p (F.set (h.tag x) (x :: (F.get? (h.tag x)).getD []))).setParent x
      (some ⟨p, 0, 0, false⟩) := by
    unfold appendItemLeft
    simp only [hb, Option.getD_some]
    split <;> next e => simp [e]
  have hkids : ∀ i, (appendItemLeft h p x).kids i = if i = p then x :: h.kids p else h.kids i := by
    intro i; rw [hres]; simp
  have htag : ∀ i, (appendItemLeft h p x).tag i = h.tag i := by intro i; rw [hres]; simp
  constructor
  · rw [hres]; rfl
  · exact htag
  · intro i; rw [hres]; simp
  · intro i; rw [hres]; simp
  · intro i; rw [hres]; simp
  · rw [hkids, if_pos rfl]; simp
  · intro i e; rw [hkids, if_neg e]
  · exact ⟨0, 0, by omega, by omega, by rw [hres, parent_setParent, if_pos rfl]⟩
  · intro i e; rw [hres]; simp [e]; exact PEq.refl _
  · rw [hres]; simpa using W.stale_none p hk
  · intro i e; rw [hres]; simp
  · have hfo := famOK_insert (x := x) (F := F) (L := h.kids p) (n := 0) (tagOf := h.tag) (Nat.zero_le _) hO.keys hO.get
      (x :: (F.get? (h.tag x)).getD []) (by rw [hO.getD]; simp [famView])
    refine ⟨_, by rw [hres]; simp, hfo.1, fun t => ?_⟩
    rw [hfo.2]
    have : famView (appendItemLeft h p x) p t = ((h.kids p).insertIdx 0 x).filter fun c => h.tag c = t := by
      simp only [famView, hkids, htag, if_true, List.insertIdx_zero]
    rw [this]
  · intro i e; rw [hres]; simp [e]

/-- reading positions while the new item already sits in the item list -/
theorem idxIs_children {h1 : Heap} {p : Id} {L' fam : List Id} (hk : h1.kids p = L') (hnd : L'.Nodup)
    (hpar : ∀ y ∈ fam, ∃ r, (h1.node y).parent = some r ∧ r.pid = p ∧ 0 ≤ r.absC) : IdxIs h1 fam (fun y => L'.idxOf y) := by
  intro h' H y hy i hi
  obtain ⟨r, h2, h3, h4⟩ := hpar y hy
  obtain ⟨r', g1, g2, _, g4, _⟩ := H.parent_some h2
  obtain ⟨n, e1, e2⟩ := idx_ok g1 (g4 h4) hi
  rw [H.kids, g2, h3, hk] at e2
  rw [e1]; simp only [nodup_idxOf_unique hnd e2]

/-- a successful `insert` into an item with children, at a non-negative index -/
theorem insertAt_attach {h h' : Heap} (W : WF h) {p x y : Id} {k : Int} (hk : h.kids p ≠ []) (hxp : (h.node x).parent = none) (h0 : 0 ≤ k)
    (hr : insertAt h p x k = (h', .ok y)) : y = x ∧ AttachRel h h' p x (pyInsPos (h.kids p).length k) := by
  have hxk := W.not_child hxp
  obtain ⟨F, hb, hf, hO⟩ := W.bound hk
  have hn : pyInsPos (h.kids p).length k ≤ (h.kids p).length := pyInsPos_le _ _
  have hnk : pyInsPos (h.kids p).length k = min k.toNat (h.kids p).length := by simp only [pyInsPos]; rw [if_neg (by omega)]
  unfold insertAt at hr
  split at hr
  · next e =>
    simp only [Prod.mk.injEq, Except.ok.injEq] at hr
    obtain ⟨rfl, rfl⟩ := hr
    refine ⟨rfl, ?_⟩
    rw [e]
    have : pyInsPos (h.kids p).length 0 = 0 := by simp [pyInsPos]
    rw [this]
    exact appendItemLeft_attach W hk
  · next e =>
    simp only [hb, Option.getD_some] at hr
    -- the common part of the two branches
    have key : ∀ (h1 : Heap) (l : List Id) (i : Nat), CEq (h.setItems p (pyInsert (h.kids p) k x)) h1 →
        l = (famView h p (h.tag x)).insertIdx (((h.kids p).take (pyInsPos (h.kids p).length k)).filter fun c => h.tag c = h.tag x).length x →
        AttachRel h ((h1.setFams p (F.set (h.tag x) l)).setParent x (some ⟨p, k, i, false⟩)) p x (pyInsPos (h.kids p).length k) := by
      intro h1 l i H hl
      have hkids : ∀ i, h1.kids i = if i = p then (h.kids p).insertIdx (pyInsPos (h.kids p).length k) x else h.kids i := by
        intro i; rw [H.kids]; simp [pyInsert]
      have htag : ∀ i, h1.tag i = h.tag i := by intro i; rw [H.tag]; simp
      constructor
      · simp [H.next]
      · intro i; simp [H.tag]
      · intro i; simp [H.value]
      · intro i; simp [H.flags]
      · intro i; simp [H.link]
      · simp [hkids]
      · intro i e; simp [hkids, e]
      · exact ⟨k, i, by omega, by omega, by simp⟩
      · intro i e
        simp only [parent_setParent, if_neg e, parent_setFams]
        have := H.par i
        rwa [parent_setItems] at this
      · simp [H.stale, W.stale_none p hk]
      · intro i e; simp [H.stale]
      · have hfo := famOK_insert (x := x) (F := F) (L := h.kids p) (n := pyInsPos (h.kids p).length k) (tagOf := h.tag) hn hO.keys hO.get
          l hl
        refine ⟨_, by simp, hfo.1, fun t => ?_⟩
        rw [hfo.2]
        have : famView ((h1.setFams p (F.set (h.tag x) l)).setParent x (some ⟨p, k, i, false⟩)) p t =
            ((h.kids p).insertIdx (pyInsPos (h.kids p).length k) x).filter fun c => h.tag c = t := by
          simp [famView, hkids, htag]
        rw [this]
      · intro i e; simp [e, H.fams]
    split at hr
    · next hg =>
      simp only [Prod.mk.injEq, Except.ok.injEq] at hr
      obtain ⟨rfl, rfl⟩ := hr
      refine ⟨rfl, ?_⟩
      refine key _ _ 0 (CEq.refl _) ?_
      have : famView h p (h.tag x) = [] := by
        rw [hO.get] at hg; by_contra hc; simp [hc] at hg
      rw [this]
      have h2 : ((h.kids p).take (pyInsPos (h.kids p).length k)).filter (fun c => h.tag c = h.tag x) = [] := by
        rw [← List.sublist_nil, ← this]
        exact List.Sublist.filter _ (List.take_sublist _ _)
      rw [h2]; rfl
    · next fam hg =>
      have hfam : fam = famView h p (h.tag x) := by rw [← hO.getD, hg]; rfl
      split at hr
      · simp at hr
      · next i hi =>
        simp only [Prod.mk.injEq, Except.ok.injEq] at hr
        obtain ⟨rfl, rfl⟩ := hr
        refine ⟨rfl, ?_⟩
        refine key _ _ i (famInsIdx_ceq _ _ _) ?_
        have hnd : ((h.kids p).insertIdx (pyInsPos (h.kids p).length k) x).Nodup := insertIdx_nodup (W.kids_nodup p) (hxk p) hn
        have I : IdxIs (h.setItems p (pyInsert (h.kids p) k x)) fam
            (fun y => ((h.kids p).insertIdx (pyInsPos (h.kids p).length k) x).idxOf y) := by
          apply idxIs_children (p := p) (by simp [pyInsert]) hnd
          intro y hy
          rw [hfam] at hy
          obtain ⟨r, h1, h2, _, h4, _⟩ := W.kid_parent p y (List.mem_filter.1 hy).1
          exact ⟨r, by simpa using h1, h2, h4⟩
        have P : fam.Pairwise (fun a b => ((h.kids p).insertIdx (pyInsPos (h.kids p).length k) x).idxOf a <
            ((h.kids p).insertIdx (pyInsPos (h.kids p).length k) x).idxOf b) := by
          refine List.Pairwise.sublist ?_ (idxOf_pairwise hnd)
          rw [hfam]
          refine List.filter_sublist.trans ?_
          rw [insertIdx_split _ _ _ hn]
          have : (h.kids p) = (h.kids p).take (pyInsPos (h.kids p).length k) ++ (h.kids p).drop (pyInsPos (h.kids p).length k) := by simp
          conv_lhs => rw [this]
          exact List.Sublist.append_left (List.sublist_cons_self _ _) _
        have hcount := famInsIdx_ok I P hi
        rw [hfam] at hcount
        have hcb := count_before (L := h.kids p) (x := x) (n := pyInsPos (h.kids p).length k) (k := k)
          (q := fun c => h.tag c = h.tag x) (W.kids_nodup p) (hxk p) hn (by omega) (by omega)
        simp only [famView] at hcount
        rw [hcb] at hcount
        rw [hfam, pyInsert_nat]
        · rw [hcount]
        · rw [hcount]; exact (List.Sublist.filter _ (List.take_sublist _ _)).length_le

/-! ### the new item -/

/-- what `prepItem` does: the item itself, or a new object for an implicit item -/
theorem prepItem_ok {h h1 : Heap} {a : Arg} {x : Id} (hr : prepItem h a = (h1, .ok x)) :
    (∃ i, a = .item i ∧ x = i ∧ h1 = h ∧ (h.node i).parent = none) ∨
    (∃ v, a = .val v ∧ AllocRel h h1 x { tag := .noTag, value := v }) := by
  unfold prepItem at hr
  split at hr
  · next i =>
    left
    split at hr
    · simp at hr
    · next hp =>
      simp at hr hp
      exact ⟨i, rfl, hr.2.symm, hr.1.symm, hp⟩
  · next v =>
    right
    simp at hr
    exact ⟨v, rfl, hr.1.symm, hr.2.symm, rfl, rfl, Or.inl rfl⟩

end ITree
