import Verif.Proofs.Replace
/-
Every call keeps the heap consistent.
-/
namespace ITree

/-- consistency without the absence of stray parent references -/
structure Core (h : Heap) : Prop where
  wf : WF h
  forest : Forest h
  nocov : NoCover h

/-- a call that leads from `h` to `h'` keeps everything consistent -/
structure Keeps (h h' : Heap) : Prop where
  core : Core h'
  le : h.next ≤ h'.next
  nz : NoZombie h → NoZombie h'

theorem Keeps.refl {h : Heap} (C : Core h) : Keeps h h := ⟨C, Nat.le_refl _, id⟩
theorem Keeps.trans {a b c : Heap} (A : Keeps a b) (B : Keeps b c) : Keeps a c := ⟨B.core, Nat.le_trans A.le B.le, fun z => B.nz (A.nz z)⟩
theorem CEq.keeps {h h' : Heap} (H : CEq h h') (C : Core h) : Keeps h h' :=
  ⟨⟨H.wf C.wf, H.forest C.forest, H.noCover C.nocov⟩, Nat.le_of_eq H.next.symm, H.noZombie⟩
theorem DetachRel.keeps {h h' : Heap} {p x n} (D : DetachRel h h' p x n) (C : Core h) : Keeps h h' :=
  ⟨⟨D.wf C.wf, D.forest C.forest, D.noCover C.nocov⟩, Nat.le_of_eq D.next.symm, D.noZombie C.wf⟩
theorem AttachRel.keeps {h h' : Heap} {p x n} (A : AttachRel h h' p x n) (C : Core h) (hp : p < h.next) (hx : x < h.next)
    (hn : n ≤ (h.kids p).length) (hxp : (h.node x).parent = none) (hb : ¬ Below h x p) : Keeps h h' :=
  ⟨⟨A.wf C.wf hp hx hn hxp, A.forest hn C.forest hb, A.noCover C.nocov⟩, Nat.le_of_eq A.next.symm, A.noZombie hn⟩
theorem RetagSpec.keeps {h h' : Heap} {x g} (S : RetagSpec h h' x g) (C : Core h) : Keeps h h' :=
  ⟨⟨S.wf, S.forest C.forest, S.noCover C.nocov⟩, Nat.le_of_eq S.next.symm, S.noZombie⟩
theorem CopySpec.keeps {h h' : Heap} {t x} (S : CopySpec h h' t x) (C : Core h) : Keeps h h' :=
  ⟨⟨S.wf, S.forest C.forest, S.nocov C.nocov⟩, S.unchanged.next, S.nz⟩
theorem AllocRel.keeps {h h' : Heap} {x n} (A : AllocRel h h' x n) (C : Core h)
    (hn : (match n.link with | some l => l.cover | none => none) = none) : Keeps h h' :=
  ⟨⟨A.wf C.wf, A.forest C.wf C.forest, A.noCover C.nocov hn⟩, A.frame.next, A.noZombie C.wf⟩
theorem StructEq.keeps {h h' : Heap} (S : StructEq h h') (C : Core h) (hl : ∀ i, (h'.node i).link = (h.node i).link) : Keeps h h' :=
  ⟨⟨S.wf C.wf, S.forest C.forest, fun y => by have := C.nocov y; simp only [coverOf, hl] at this ⊢; exact this⟩, Nat.le_of_eq S.next.symm, S.noZombie⟩

/-! ### placing an item -/

/-- the argument `a` was placed at position `n` of the children of `p`: an item is placed itself, any other object `v` is wrapped in a new item
with value `v` -/
structure PlaceSpec (h h' : Heap) (p : Id) (a : Arg) (x : Id) (n : Nat) : Prop where
  wf : WF h'
  kids : h'.kids p = (h.kids p).insertIdx n x
  le : n ≤ (h.kids p).length
  par : h'.par x = some p
  frame : Frame h h' (· = p) (· = x)
  item : ∀ i, a = .item i → x = i ∧ h.par i = none
  val : ∀ v, a = .val v → x = h.next ∧ h'.tag x = .noTag ∧ (h'.node x).value = v ∧ h'.flags x = 0#6 ∧ (x ≠ p → h'.kids x = [])
  nz : NoZombie h → NoZombie h'
  forest : Forest h → (∀ i, a = .item i → ¬ Below h i p) → Forest h'
  nocov : NoCover h → NoCover h'

theorem PlaceSpec.keeps {h h' : Heap} {p a x n} (S : PlaceSpec h h' p a x n) (C : Core h) (hb : ∀ i, a = .item i → ¬ Below h i p) : Keeps h h' :=
  ⟨⟨S.wf, S.forest C.forest hb, S.nocov C.nocov⟩, S.frame.next, S.nz⟩

/-- from the two steps of the placing calls -/
theorem placeSpec_of {h h1 h' : Heap} (W : WF h) {p x : Id} {a : Arg} {n : Nat} (hp : p < h.next) (ha : ∀ i, a = .item i → i < h.next)
    (hprep : prepItem h a = (h1, .ok x)) (A : WF h1 → (h1.node x).parent = none → x < h1.next → h1.kids p = h.kids p → AttachRel h1 h' p x n)
    (hn : n ≤ (h.kids p).length) : PlaceSpec h h' p a x n := by
  rcases prepItem_ok hprep with ⟨i, rfl, rfl, rfl, hi⟩ | ⟨v, rfl, Al⟩
  · have A := A W hi (ha _ rfl) rfl
    refine ⟨A.wf W hp (ha _ rfl) hn hi, A.kids_p, hn, by rw [A.par', if_pos rfl], A.frame, ?_, ?_, A.noZombie hn, ?_, A.noCover⟩
    · rintro _ ⟨⟩; exact ⟨rfl, by simp [Heap.par, hi]⟩
    · rintro _ ⟨⟩
    · intro F hb; exact A.forest hn F (hb _ rfl)
  · have W1 := Al.wf W
    have hx := Al.id
    have hnx : h1.next = h.next + 1 := by rw [Al.eq]; rfl
    have hnode : h1.node x = { tag := .noTag, value := v } := by rw [Al.eq, hx]; simp [Heap.alloc]
    have hpar : (h1.node x).parent = none := by rw [hnode]
    have hk := Al.kids W
    have A := A W1 hpar (by omega) (hk p)
    refine ⟨A.wf W1 (by omega) (by omega) (by rw [hk]; exact hn) hpar, by rw [A.kids_p, hk], hn, by rw [A.par', if_pos rfl], ?_, ?_, ?_, 
      fun Z => A.noZombie (by rw [hk]; exact hn) (Al.noZombie W Z), ?_, fun N => A.noCover (Al.noCover N rfl)⟩
    · exact (Al.frame.mono (by simp) (by simp)).trans A.frame
    · rintro _ ⟨⟩
    · rintro _ ⟨⟩
      refine ⟨hx, by rw [A.tag]; simp [Heap.tag, hnode], by rw [A.value, hnode], by rw [A.flags]; simp [Heap.flags, hnode], fun e => ?_⟩
      rw [A.kids_o x e]; simp [Heap.kids, hnode]
    · intro F _
      refine A.forest (by rw [hk]; exact hn) (Al.forest W F) fun b => ?_
      have hkx : h1.kids x = [] := by simp [Heap.kids, hnode]
      have := below_leaf hkx b
      omega

theorem prepItem_err {h h1 : Heap} {a : Arg} {e : Err} (hr : prepItem h a = (h1, .error e)) : h1 = h ∧ e = .recursion ∧ ∃ i, a = .item i ∧ h.par i ≠ none := by
  unfold prepItem at hr
  split at hr
  · split at hr
    · next i hs =>
      simp only [Prod.mk.injEq, Except.error.injEq] at hr
      refine ⟨hr.1.symm, hr.2.symm, i, rfl, ?_⟩
      cases hh : (h.node i).parent with
      | none => simp [hh] at hs
      | some r => simp [Heap.par, hh]
    · simp at hr
  · simp at hr

theorem append_spec {h h' : Heap} (W : WF h) {p x : Id} {a : Arg} (hp : p < h.next) (ha : ∀ i, a = .item i → i < h.next)
    (hr : append h p a = (h', .ok x)) : PlaceSpec h h' p a x (h.kids p).length := by
  unfold append at hr
  split at hr
  · simp at hr
  · dsimp only at hr
    split at hr
    · simp at hr
    · next y hy =>
      simp only [Prod.mk.injEq, Except.ok.injEq] at hr
      obtain ⟨rfl, rfl⟩ := hr
      refine placeSpec_of W hp ha (h1 := (prepItem h a).1) (by rw [← hy]) ?_ (Nat.le_refl _)
      intro W1 h1 _ hk
      rw [← hk]
      exact appendItem_attach W1 h1

theorem append_err {h h' : Heap} {p : Id} {a : Arg} {e : Err} (hr : append h p a = (h', .error e)) : h' = h := by
  unfold append at hr
  split at hr
  · simp at hr; exact hr.1.symm
  · dsimp only at hr
    split at hr
    · next e' he =>
      simp only [Prod.mk.injEq] at hr
      rw [← hr.1]
      exact (prepItem_err (h := h) (a := a) (h1 := (prepItem h a).1) (by rw [← he])).1
    · simp at hr

theorem appendLeft_spec {h h' : Heap} (W : WF h) {p x : Id} {a : Arg} (hp : p < h.next) (ha : ∀ i, a = .item i → i < h.next)
    (hr : appendLeft h p a = (h', .ok x)) : PlaceSpec h h' p a x 0 := by
  unfold appendLeft at hr
  split at hr
  · simp at hr
  · dsimp only at hr
    split at hr
    · simp at hr
    · next y hy =>
      split at hr
      · next hnil =>
        simp only [Prod.mk.injEq, Except.ok.injEq] at hr
        obtain ⟨rfl, rfl⟩ := hr
        refine placeSpec_of W hp ha (h1 := (prepItem h a).1) (by rw [← hy]) ?_ (Nat.zero_le _)
        intro W1 h1 _ hk
        have := appendItem_attach W1 (p := p) h1
        rwa [hnil] at this
      · next hnil =>
        simp only [Prod.mk.injEq, Except.ok.injEq] at hr
        obtain ⟨rfl, rfl⟩ := hr
        refine placeSpec_of W hp ha (h1 := (prepItem h a).1) (by rw [← hy]) ?_ (Nat.zero_le _)
        intro W1 h1 _ hk
        exact appendItemLeft_attach W1 hnil

theorem appendLeft_err {h h' : Heap} {p : Id} {a : Arg} {e : Err} (hr : appendLeft h p a = (h', .error e)) : h' = h := by
  unfold appendLeft at hr
  split at hr
  · simp at hr; exact hr.1.symm
  · dsimp only at hr
    split at hr
    · next e' he =>
      simp only [Prod.mk.injEq] at hr
      rw [← hr.1]
      exact (prepItem_err (h := h) (a := a) (h1 := (prepItem h a).1) (by rw [← he])).1
    · split at hr <;> simp at hr

theorem insertAt_id {h h' : Heap} {p x y : Id} {k : Int} (hr : insertAt h p x k = (h', .ok y)) : y = x := by
  unfold insertAt at hr
  split at hr
  · simp at hr; exact hr.2.symm
  · dsimp only at hr
    split at hr
    · simp at hr; exact hr.2.symm
    · split at hr
      · simp at hr
      · simp at hr; exact hr.2.symm

/-- `insert` at an index `k ≥ -len` -/
theorem insert_spec {h h' : Heap} (W : WF h) {p x : Id} {a : Arg} {k : Int} (hp : p < h.next) (ha : ∀ i, a = .item i → i < h.next)
    (hk : -((h.kids p).length : Int) ≤ k) (hr : insert h p (some (.int k)) a = (h', .ok x)) : PlaceSpec h h' p a x (pyInsPos (h.kids p).length k) := by
  unfold insert at hr
  dsimp only at hr
  split at hr
  · simp at hr
  · split at hr
    · simp at hr
    · next y hy =>
      split at hr
      · next hnil =>
        simp only [Prod.mk.injEq, Except.ok.injEq] at hr
        obtain ⟨rfl, rfl⟩ := hr
        refine placeSpec_of W hp ha (h1 := (prepItem h a).1) (by rw [← hy]) ?_ (pyInsPos_le _ _)
        intro W1 h1 _ hkk
        have := appendItem_attach W1 (p := p) h1
        rw [hnil] at this
        have h0 : pyInsPos (h.kids p).length k = 0 := by
          have := pyInsPos_le (h.kids p).length k
          rw [← hkk, hnil] at this ⊢
          simp at this; exact this
        rwa [h0]
      · next hnil =>
        simp only [insertPos] at hr
        have hyx : y = x := (insertAt_id hr).symm
        subst hyx
        refine placeSpec_of W hp ha (h1 := (prepItem h a).1) (by rw [← hy]) ?_ (pyInsPos_le _ _)
        intro W1 h1 _ hkk
        have hpos : pyInsPos (h.kids p).length k = pyInsPos ((prepItem h a).1.kids p).length
            (if k < 0 then (((prepItem h a).1.kids p).length : Int) + k else k) := by
          rw [hkk]; unfold pyInsPos; split
          · rw [if_neg (by omega)]; omega
          · rfl
        rw [hpos]
        refine (insertAt_attach W1 hnil h1 ?_ hr).2
        rw [hkk]; split <;> omega

/-! ### deleting -/

theorem delInt_keeps {h : Heap} (C : Core h) (p : Id) (k : Int) : Keeps h (delInt h p k).1 := by
  cases hr : (delInt h p k).2 with
  | error e =>
    have := delInt_err C.wf (fun c _ => C.nocov c) (show delInt h p k = ((delInt h p k).1, .error e) by rw [← hr])
    rw [this]; exact Keeps.refl C
  | ok x =>
    obtain ⟨n, _, D⟩ := delInt_ok C.wf (fun c _ => C.nocov c) (show delInt h p k = ((delInt h p k).1, .ok x) by rw [← hr])
    exact D.keeps C

theorem delByItem_keeps {h : Heap} (C : Core h) (p x : Id) : Keeps h (delByItem h p x).1 := by
  have H := idx_ceq h x
  have K := H.keeps C
  unfold delByItem
  dsimp only
  split
  · exact K
  · exact K
  · exact K.trans (delInt_keeps K.core p _)

/-- deleting a child given as an object -/
theorem delByItem_ok {h h' : Heap} (W : WF h) (N : NoCover h) {p x y : Id} {n : Nat} (hn : (h.kids p)[n]? = some x) (hr : delByItem h p x = (h', .ok y)) :
    y = x ∧ DetachRel h h' p x n := by
  have hx := List.mem_of_getElem? hn
  obtain ⟨n', e1, e2⟩ := idx_child W hx
  have hn' : n' = n := by rw [← nodup_idxOf_unique (W.kids_nodup p) hn, nodup_idxOf_unique (W.kids_nodup p) e2]
  subst hn'
  have H := idx_ceq h x
  unfold delByItem at hr
  simp only [e1] at hr
  obtain ⟨m, hm, D⟩ := delInt_ok (H.wf W) (fun c _ => H.noCover N c) hr
  have D := D.ofCEq H
  have hl := (List.getElem?_eq_some_iff.1 hn).1
  rw [H.kids, pyPos_nat hl] at hm
  cases hm
  have := D.at_n
  rw [hn] at this
  cases this
  exact ⟨rfl, D⟩

theorem delByItem_err {h h' : Heap} (W : WF h) (N : NoCover h) {p x : Id} {e : Err} (hr : delByItem h p x = (h', .error e)) : CEq h h' := by
  have H := idx_ceq h x
  unfold delByItem at hr
  dsimp only at hr
  split at hr
  · simp at hr; rw [← hr.1]; exact H
  · simp at hr; rw [← hr.1]; exact H
  · rw [delInt_err (H.wf W) (fun c _ => H.noCover N c) hr]; exact H

theorem delMany_keeps {p : Id} : ∀ (l : List Id) {h : Heap}, Core h → Keeps h (delMany h p l).1 := by
  intro l
  induction l with
  | nil => intro h C; exact Keeps.refl C
  | cons x xs ih =>
    intro h C
    have K := delByItem_keeps C p x
    simp only [delMany]
    split
    · exact K
    · have := K.trans (ih K.core)
      split <;> exact this

/-- `del t[target]` for everything but slices -/
theorem delItem_keeps {h : Heap} (C : Core h) (p : Id) (tg : Target) (ht : ∀ s, tg ≠ .slice s) : Keeps h (delItem h p tg).1 := by
  unfold delItem
  split
  · exact delInt_keeps C p _
  · exact (ht _ rfl).elim
  · split
    · exact Keeps.refl C
    · split
      · exact Keeps.refl C
      · split
        · exact Keeps.refl C
        · exact delByItem_keeps C p _
        · exact delMany_keeps _ C

theorem remove_keeps {h : Heap} (C : Core h) (p x : Id) : Keeps h (remove h p x).1 := by
  unfold remove
  split
  · exact delByItem_keeps C p x
  · exact Keeps.refl C

/-! ### extending -/

theorem extend_spec {h h' : Heap} (W : WF h) {p : Id} (hp : p < h.next) {as : List Arg} (ha : ∀ i, Arg.item i ∈ as → i < h.next)
    (hr : extend h p as = (h', .ok ())) : ∃ xs, ExtendSpec h h' p as xs := by
  unfold extend at hr
  split at hr
  · simp at hr
  · simp at hr; rw [← hr]; exact iterExtend_spec W hp as ha

theorem extend_err {h h' : Heap} {p : Id} {as : List Arg} {e : Err} (hr : extend h p as = (h', .error e)) : h' = h := by
  unfold extend at hr
  split at hr
  · simp at hr; exact hr.1.symm
  · simp at hr

theorem ExtendSpec.keeps {h h' : Heap} {p as xs} (S : ExtendSpec h h' p as xs) (C : Core h)
    (hb : ∀ i, Arg.item i ∈ as → h.par i = none → ¬ Below h i p) : Keeps h h' :=
  ⟨⟨S.wf, S.forest C.forest hb, S.nocov C.nocov⟩, S.frame.next, S.nz⟩

theorem extend_keeps {h : Heap} (C : Core h) {p : Id} (hp : p < h.next) {as : List Arg} (ha : ∀ i, Arg.item i ∈ as → i < h.next)
    (hb : ∀ i, Arg.item i ∈ as → h.par i = none → ¬ Below h i p) : Keeps h (extend h p as).1 := by
  unfold extend
  split
  · exact Keeps.refl C
  · obtain ⟨xs, S⟩ := iterExtend_spec C.wf hp as ha; exact S.keeps C hb

theorem extendLeft_err {h h' : Heap} {p : Id} {as : List Arg} {e : Err} (hr : extendLeft h p as = (h', .error e)) : h' = h := by
  unfold extendLeft at hr
  split at hr
  · simp at hr; exact hr.1.symm
  · simp at hr

theorem extendLeft_keeps {h : Heap} (C : Core h) {p : Id} (hp : p < h.next) {as : List Arg} (ha : ∀ i, Arg.item i ∈ as → i < h.next)
    (hd : ∀ i, Arg.item i ∈ as → i ∉ h.kids p)
    (hb : ∀ i, Arg.item i ∈ as → h.par i = none → ¬ Below h i p) : Keeps h (extendLeft h p as).1 := by
  cases hr : (extendLeft h p as).2 with
  | error e =>
    rw [extendLeft_err (show extendLeft h p as = ((extendLeft h p as).1, .error e) by rw [← hr])]; exact Keeps.refl C
  | ok u =>
    obtain ⟨xs, S⟩ := extendLeft_spec C.wf hp ha hd (show extendLeft h p as = ((extendLeft h p as).1, .ok ()) by rw [← hr])
    exact ⟨⟨S.wf, S.forest C.forest hb, S.nocov C.nocov⟩, S.frame.next, S.nz⟩

/-- children of an item have a parent, so extending with them makes copies only -/
theorem extendTree_keeps {h : Heap} (C : Core h) {p u : Id} (hp : p < h.next) : Keeps h (extendTree h p u).1 := by
  have W := C.wf
  have hk : ∀ {g : Heap} {v i : Id}, WF g → Arg.item i ∈ (g.kids v).map Arg.item → i < g.next ∧ g.par i ≠ none := by
    intro g v i Wg hi
    obtain ⟨j, hj, e⟩ := List.mem_map.1 hi
    cases e
    exact ⟨Wg.kids_lt v i hj, by rw [par_child Wg hj]; simp⟩
  unfold extendTree
  dsimp only
  split
  · exact Keeps.refl C
  · split
    · have K := (copyItem_spec W u).keeps C
      obtain ⟨xs, S⟩ := iterExtend_spec K.core.wf (p := p) (Nat.lt_of_lt_of_le hp K.le) (((copyItem h u).1.kids (copyItem h u).2).map Arg.item)
        (fun i hi => (hk K.core.wf hi).1)
      exact K.trans (S.keeps K.core fun i hi e => ((hk K.core.wf hi).2 e).elim)
    · obtain ⟨xs, S⟩ := iterExtend_spec W (p := p) hp ((h.kids u).map Arg.item) (fun i hi => (hk W hi).1)
      exact S.keeps C fun i hi e => ((hk W hi).2 e).elim

/-! ### flags and values -/

theorem flagsOnly (f : Flags → Flags) : DataOnly (fun n : Node => { n with flags := f n.flags }) := ⟨fun _ => rfl, fun _ => rfl, fun _ => rfl, fun _ => rfl, fun _ => rfl⟩
theorem valueOnly (v : Val) : DataOnly (fun n : Node => { n with value := v }) := ⟨fun _ => rfl, fun _ => rfl, fun _ => rfl, fun _ => rfl, fun _ => rfl⟩

/-- only flags and values of items differ -/
structure DataEq (h h' : Heap) : Prop where
  str : StructEq h h'
  link : ∀ i, (h'.node i).link = (h.node i).link

theorem DataEq.refl (h : Heap) : DataEq h h := ⟨StructEq.refl h, fun _ => rfl⟩
theorem DataEq.trans {a b c : Heap} (A : DataEq a b) (B : DataEq b c) : DataEq a c := ⟨A.str.trans B.str, fun i => (B.link i).trans (A.link i)⟩
theorem DataEq.keeps {h h' : Heap} (S : DataEq h h') (C : Core h) : Keeps h h' := S.str.keeps C S.link
theorem dataEq_flags (h : Heap) (x : Id) (f : Flags → Flags) : DataEq h (h.modify x fun n => { n with flags := f n.flags }) :=
  ⟨(flagsOnly f).structEq h x, fun i => by simp only [node_modify]; split <;> rfl⟩
theorem dataEq_val (h : Heap) (x : Id) (v : Val) : DataEq h (h.setVal x v) :=
  ⟨(valueOnly v).structEq h x, fun i => by simp only [Heap.setVal, node_modify]; split <;> rfl⟩

theorem setFlags1_data (h : Heap) (x f) : DataEq h (setFlags1 h x f).1 := by
  unfold setFlags1; split
  · exact DataEq.refl h
  · exact dataEq_flags h x (· ||| f)
theorem setFlagsAll_data (f) : ∀ (l : List Id) (h : Heap), DataEq h (setFlagsAll h f l).1 := by
  intro l
  induction l with
  | nil => intro h; exact DataEq.refl h
  | cons x xs ih =>
    intro h
    simp only [setFlagsAll]
    split
    · exact setFlags1_data h x f
    · exact (setFlags1_data h x f).trans (ih _)
theorem unsetFlagsOp_data (h : Heap) (x f) : DataEq h (unsetFlagsOp h x f).1 := by
  unfold unsetFlagsOp; split
  · exact DataEq.refl h
  · exact dataEq_flags h x (unsetFlags · f)
theorem unsetTreeReadOnly_data (h : Heap) (x) : DataEq h (unsetTreeReadOnly h x).1 := by
  unfold unsetTreeReadOnly; split
  · split
    · exact DataEq.refl h
    · exact unsetFlagsOp_data _ _ _
  · exact unsetFlagsOp_data _ _ _
theorem setValue_data (ms) (h : Heap) (x v) : DataEq h (setValue ms h x v).1 := by
  unfold setValue; split
  · exact DataEq.refl h
  · split
    · exact dataEq_val _ _ _
    · exact DataEq.refl h
theorem setKeyValue_data (ms) (h : Heap) (x k v) : DataEq h (setKeyValue ms h x k v).1 := by
  unfold setKeyValue; split
  · exact DataEq.refl h
  · split
    · exact dataEq_val _ _ _
    · exact DataEq.refl h
theorem delValue_data (h : Heap) (x) : DataEq h (delValue h x).1 := by
  unfold delValue; split
  · exact DataEq.refl h
  · exact dataEq_val _ _ _
theorem delKeyValue_data (h : Heap) (x k) : DataEq h (delKeyValue h x k).1 := by
  unfold delKeyValue; split
  · exact DataEq.refl h
  · split
    · exact dataEq_val _ _ _
    · exact DataEq.refl h

end ITree
