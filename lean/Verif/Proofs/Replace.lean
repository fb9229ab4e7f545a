import Verif.Proofs.Rename
/-
Replacing one child by another item.
-/
namespace ITree

/-! ### tag_idx -/

theorem tagIdx_ceq (h : Heap) (x : Id) : CEq h (h.tagIdx x).1 := by
  unfold Heap.tagIdx
  split
  · exact CEq.refl h
  · next r hr =>
    split
    · exact CEq.refl h
    · split
      · exact CEq.refl h
      · exact cachedPos_ceq hr

/-- `tag_idx` of a child always succeeds and its number is the position inside the family -/
theorem tagIdx_child {h : Heap} (W : WF h) {p x : Id} (hx : x ∈ h.kids p) :
    ∃ m : Nat, (famView h p (h.tag x))[m]? = some x ∧ ((h.tagIdx x).2 = .ok (.pair (h.tag x) m) ∨ (h.tagIdx x).2 = .ok (.bare m)) := by
  obtain ⟨r, h1, h2, h3, h4, h5⟩ := W.kid_parent p x hx
  have hne : h.kids p ≠ [] := by intro e; rw [e] at hx; simp at hx
  obtain ⟨F, hb, hf, hO⟩ := W.bound hne
  have hg := hO.get_of_mem hx
  have hS : Scannable h (famView h p (h.tag x)) := fun y hy => W.scannable p y (List.mem_filter.1 hy).1
  have hm : x ∈ famView h p (h.tag x) := List.mem_filter.2 ⟨hx, by simp⟩
  obtain ⟨i, b, hi⟩ := cachedPos_succ (c := .fam) (h := h) (x := x) (r := r) h5 hS h3 hm
  obtain ⟨m, rfl, hm'⟩ := cachedPos_ok (c := .fam) h5 hi
  refine ⟨m, hm', ?_⟩
  unfold Heap.tagIdx
  simp only [h1, h2, hb, hg, hi]
  cases b
  · left; rfl
  · right; rfl

theorem setFams_self {h : Heap} {p : Id} {F : Fams} (hf : (h.node p).fams = some F) : h.setFams p F = h := by
  obtain ⟨nd, nx⟩ := h
  simp only [Heap.setFams, Heap.modify, Heap.mk.injEq, and_true]
  funext j
  split
  · next e =>
    subst e
    dsimp only at hf
    cases hn : nd j with
    | mk a b c d e f g i => rw [hn] at hf; dsimp only at hf; subst hf; rfl
  · rfl

/-! ### which errors `idx` of a listed item can have -/

theorem scanFwd_err (c : Cache) (x : Id) (l : List Id) : ∀ (h : Heap) (i : Nat) (e : Err), x ∈ l → (scanFwd c h x l i).2 = .error e → e = .attribute := by
  induction l with
  | nil => intro h i e hx; simp at hx
  | cons y ys ih =>
    intro h i e hx hr
    simp only [scanFwd] at hr
    split at hr
    · simpa using hr.symm
    · split at hr
      · simpa using hr.symm
      · split at hr
        · simp at hr
        · next hyx =>
          refine ih _ _ _ ?_ hr
          rcases List.mem_cons.1 hx with rfl | h
          · exact (hyx rfl).elim
          · exact h

theorem scanBwd_err (c : Cache) (x : Id) (l : List Id) : ∀ (h : Heap) (i : Nat) (e : Err), x ∈ l → (scanBwd c h x l i).2 = .error e → e = .attribute := by
  induction l with
  | nil => intro h i e hx; simp at hx
  | cons y ys ih =>
    intro h i e hx hr
    simp only [scanBwd] at hr
    split at hr
    · simpa using hr.symm
    · split at hr
      · simpa using hr.symm
      · split at hr
        · simp at hr
        · next hyx =>
          refine ih _ _ _ ?_ hr
          rcases List.mem_cons.1 hx with rfl | h
          · exact (hyx rfl).elim
          · exact h

theorem cachedPos_err {c : Cache} {h : Heap} {x : Id} {r : PRef} {l : List Id} {e : Err} (hk : 0 ≤ r.getC c) (hx : x ∈ l)
    (he : (cachedPos c h x r l).2 = .error e) : e = .attribute ∨ e = .type := by
  have slow : (match windowFind l x (max 0 (r.getC c - 20)).toNat (min (l.length : Int) (r.getC c + 20 + 1)).toNat with
      | some i => if r.frozen then (h, Except.error Err.type) else (h.setParent x (some (r.setC c i)), Except.ok ((i : Int), false))
      | none =>
        let res := if 2 * r.getC c < l.length then scanFwd c h x l 0 else scanBwd c h x l.reverse (l.length - 1)
        (res.1, match res.2 with | .ok i => .ok ((i : Int), true) | .error e => .error e)).2 = .error e → e = .attribute ∨ e = .type := by
    intro he
    split at he
    · split at he
      · right; simpa using he.symm
      · simp at he
    · left
      dsimp only at he
      split at he
      · simp at he
      · next e' hs =>
        have : e' = e := by simpa using he
        subst this
        split at hs
        · exact scanFwd_err c x l h 0 _ hx hs
        · exact scanBwd_err c x l.reverse h _ _ (by simpa using hx) hs
  unfold cachedPos at he
  dsimp only at he
  split at he
  · next hlt =>
    have : ∃ y, pyGet l (r.getC c) = some y := by
      simp only [pyGet, hk, if_true]
      exact ⟨l[(r.getC c).toNat]'(by omega), List.getElem?_eq_getElem (by omega)⟩
    obtain ⟨y, hy⟩ := this
    simp only [hy] at he
    split at he
    · simp at he
    · exact slow he
  · exact slow he

theorem idx_err {h : Heap} {x : Id} {r : PRef} {e : Err} (hr : (h.node x).parent = some r) (h0 : 0 ≤ r.absC) (hx : x ∈ h.kids r.pid)
    (he : (h.idx x).2 = .error e) : e = .attribute ∨ e = .type := by
  unfold Heap.idx at he
  simp only [hr] at he
  split at he
  · simp at he
  · next e' hc =>
    have : e' = e := by simpa using he
    subst this
    exact cachedPos_err (c := .abs) h0 hx hc

theorem famInsIdxAux_err (fuel : Nat) : ∀ (h : Heap) (fam : List Id) (k : Int) (last : Nat) (e : Err),
    (∀ h', CEq h h' → ∀ y ∈ fam, ∀ e, (h'.idx y).2 = .error e → e = .attribute ∨ e = .type) → fam ≠ [] → fam.length ≤ fuel →
    (famInsIdxAux fuel h fam k last).2 = .error e → e = .attribute ∨ e = .type := by
  induction fuel with
  | zero => intro h fam k last e _ h1 h2; simp at h2; exact (h1 h2).elim
  | succ fuel ih =>
    intro h fam k last e I hne hf he
    unfold famInsIdxAux at he
    split at he
    · exact (hne rfl).elim
    · next x =>
      dsimp only at he
      split at he
      · simp at he
      · right; simpa using he.symm
      · next e' hi => 
        have : e' = e := by simpa using he
        subst this
        exact I h (CEq.refl h) x (by simp) _ hi
    · next hne1 hne2 =>
      dsimp only at he
      have hlen : 2 ≤ fam.length := by
        match fam, hne1, hne2 with
        | [], h1, _ => exact (h1 rfl).elim
        | [a], _, h2 => exact (h2 a rfl).elim
        | a :: b :: r, _, _ => simp
      obtain ⟨b1, b2⟩ := roundHalf_bounds hlen
      generalize roundHalf fam.length = m at b1 b2 he
      have hx : fam[m]? = some fam[m] := List.getElem?_eq_getElem b2
      simp only [hx] at he
      split at he
      · split at he
        · exact ih _ _ _ _ _ (fun h' H y hy => I h' ((idx_ceq _ _).trans H) y (List.mem_of_mem_drop hy))
            (by simp; omega) (by simp; omega) he
        · exact ih _ _ _ _ _ (fun h' H y hy => I h' ((idx_ceq _ _).trans H) y (List.mem_of_mem_take hy))
            (by simp; exact ⟨by omega, hne⟩) (by simp; omega) he
      · right; simpa using he.symm
      · next e' hi => 
        have : e' = e := by simpa using he
        subst this
        exact I h (CEq.refl h) _ (List.mem_of_getElem? hx) _ hi

/-! ### detaching, explicitly -/

theorem detach_explicit {h : Heap} (W : WF h) {p x : Id} {n : Nat} (hn : (h.kids p)[n]? = some x) :
    ∃ F', DetachRel h (((h.setItems p ((h.kids p).eraseIdx n)).setFams p F').setParent x none) p x n := by
  have hxm : x ∈ h.kids p := List.mem_of_getElem? hn
  have hne : h.kids p ≠ [] := by intro e; rw [e] at hxm; simp at hxm
  obtain ⟨F, hb, hf, hO⟩ := W.bound hne
  obtain ⟨F', hF'⟩ : ∃ F', F' = if (List.filter (fun c => decide (h.tag c = h.tag x)) (h.kids p)).length = 1 then F.del (h.tag x)
        else F.set (h.tag x) ((List.filter (fun c => decide (h.tag c = h.tag x)) (h.kids p)).eraseIdx
              (List.filter (fun c => decide (h.tag c = h.tag x)) (List.take n (h.kids p))).length) := ⟨_, rfl⟩
  have hfo := famOK_erase (tagOf := h.tag) (F := F) hn hO.keys hO.get F' hF'
  refine ⟨F', ?_⟩
  constructor
  · rfl
  · intro i; simp
  · intro i; simp
  · intro i; simp
  · intro i; simp
  · exact hn
  · simp
  · intro i e; simp [e]
  · simp
  · intro i e; simp [e]; exact PEq.refl _
  · intro i; simp
  · refine ⟨F', by simp, hfo.1, fun t => ?_⟩
    rw [hfo.2]
    simp [famView]
  · intro i e; simp [e]

theorem DetachRel.ofCEq {h h1 h' : Heap} {p x : Id} {n : Nat} (H : CEq h h1) (D : DetachRel h1 h' p x n) : DetachRel h h' p x n where
  next := D.next.trans H.next
  tag i := (D.tag i).trans (H.tag i)
  value i := (D.value i).trans (H.value i)
  flags i := (D.flags i).trans (H.flags i)
  link i := (D.link i).trans (H.link i)
  at_n := by rw [← H.kids]; exact D.at_n
  kids_p := by rw [← H.kids]; exact D.kids_p
  kids_o i e := (D.kids_o i e).trans (H.kids i)
  par_x := D.par_x
  par_o i e := (H.par i).trans (D.par_o i e)
  stale i := (D.stale i).trans (H.stale i)
  fams_p := D.fams_p
  fams_o i e := (D.fams_o i e).trans (H.fams i)

theorem AttachRel.ofCEq {h h1 h' : Heap} {p x : Id} {n : Nat} (H : CEq h h1) (D : AttachRel h1 h' p x n) : AttachRel h h' p x n where
  next := D.next.trans H.next
  tag i := (D.tag i).trans (H.tag i)
  value i := (D.value i).trans (H.value i)
  flags i := (D.flags i).trans (H.flags i)
  link i := (D.link i).trans (H.link i)
  kids_p := by rw [← H.kids]; exact D.kids_p
  kids_o i e := (D.kids_o i e).trans (H.kids i)
  par_x := D.par_x
  par_o i e := (H.par i).trans (D.par_o i e)
  stale_p := D.stale_p
  stale_o i e := (D.stale_o i e).trans (H.stale i)
  fams_p := D.fams_p
  fams_o i e := (D.fams_o i e).trans (H.fams i)

/-- the old child is taken out and the new item put in its place -/
def ReplaceRel (h h' : Heap) (p old x : Id) (n : Nat) : Prop := ∃ hm, DetachRel h hm p old n ∧ AttachRel hm h' p x n

theorem set_eq_insert_erase {l : List Id} {n : Nat} (x : Id) (hn : n < l.length) : l.set n x = (l.eraseIdx n).insertIdx n x := by
  rw [List.eraseIdx_eq_take_drop_succ, insertIdx_split _ _ _ (by simp; omega)]
  rw [List.take_append_of_le_length (by simp; omega), List.drop_append_of_le_length (by simp; omega)]
  rw [List.take_take, Nat.min_self, List.drop_take_self, List.nil_append, List.set_eq_take_append_cons_drop, if_pos hn]

theorem ReplaceRel.kids {h h' : Heap} {p old x : Id} {n : Nat} (R : ReplaceRel h h' p old x n) : h'.kids p = (h.kids p).set n x := by
  obtain ⟨hm, D, A⟩ := R
  rw [A.kids_p, D.kids_p, set_eq_insert_erase _ (List.getElem?_eq_some_iff.1 D.at_n).1]

/-- `t[i] = x` -/
theorem replaceChild_spec {h h' : Heap} (W : WF h) {p old x y : Id} {n : Nat} (hn : (h.kids p)[n]? = some old)
    (hxp : (h.node x).parent = none) (hfam : h.tag x = h.tag old ∨ 2 ≤ (famView h p (h.tag old)).length)
    (hr : replaceChild h p old x = (h', .ok y)) : y = x ∧ ReplaceRel h h' p old x n := by
  have hom : old ∈ h.kids p := List.mem_of_getElem? hn
  obtain ⟨n', e1, e2⟩ := idx_child W hom
  have hn' : n' = n := by rw [← nodup_idxOf_unique (W.kids_nodup p) hn, nodup_idxOf_unique (W.kids_nodup p) e2]
  subst hn'
  unfold replaceChild at hr
  simp only [e1] at hr
  have H1 : CEq h (h.idx old).1 := idx_ceq _ _
  have W1 := H1.wf W
  obtain ⟨m, g1, g2⟩ := tagIdx_child W1 (p := p) (x := old) (by rw [H1.kids]; exact hom)
  have H2 : CEq h ((h.idx old).1.tagIdx old).1 := H1.trans (tagIdx_ceq _ _)
  rcases g2 with g2 | g2
  swap
  · simp only [g2] at hr; simp at hr
  simp only [g2] at hr
  rw [H1.famView, H1.tag] at g1
  rw [H1.tag] at hr
  generalize ((h.idx old).1.tagIdx old).1 = g at hr H2
  have Wg := H2.wf W
  have hng : (g.kids p)[n']? = some old := by rw [H2.kids]; exact hn
  have hnl : n' < (g.kids p).length := (List.getElem?_eq_some_iff.1 hng).1
  have hgetn : (g.kids p)[n'] = old := (List.getElem?_eq_some_iff.1 hng).2
  have hne : g.kids p ≠ [] := by intro e; rw [e] at hng; simp at hng
  obtain ⟨F, hb, hf, hO⟩ := Wg.bound hne
  have hxg : (g.node x).parent = none := (H2.parent_none x).2 hxp
  have hxk := Wg.not_child hxg
  have hnd := Wg.kids_nodup p
  have hxo : x ≠ old := by rintro rfl; exact hxk p (List.mem_of_getElem? hng)
  rw [← H2.tag] at hr
  rw [← H2.tag, ← H2.famView] at g1 hfam
  rw [← H2.tag old] at hfam
  have hmpos : m = (((g.kids p).take n').filter fun c => g.tag c = g.tag old).length := by
    have a := famView_pos hng
    have hfnd : (famView g p (g.tag old)).Nodup := hnd.sublist List.filter_sublist
    rw [← nodup_idxOf_unique hfnd a, nodup_idxOf_unique hfnd g1]
  have hml : m < (famView g p (g.tag old)).length := (List.getElem?_eq_some_iff.1 g1).1
  obtain ⟨Fd, D⟩ := detach_explicit Wg hng
  suffices hs : y = x ∧ AttachRel (((g.setItems p ((g.kids p).eraseIdx n')).setFams p Fd).setParent old none) h' p x n' from
    ⟨hs.1, _, D.ofCEq H2, hs.2⟩
  have key : ∀ (h1 : Heap) (F2 : Fams) (i : Int), 0 ≤ i → (∃ F0, CEq (((g.setParent old none).setItems p ((g.kids p).set n' x)).setFams p F0) h1) →
      (F2.map Prod.fst).Nodup → (∀ t, F2.get? t = if ((g.kids p).set n' x).filter (fun c => g.tag c = t) = [] then none
        else some (((g.kids p).set n' x).filter fun c => g.tag c = t)) →
      AttachRel (((g.setItems p ((g.kids p).eraseIdx n')).setFams p Fd).setParent old none)
        ((h1.setFams p F2).setParent x (some ⟨p, n', i, false⟩)) p x n' := by
    rintro h1 F2 i hi ⟨F0, H⟩ hk hg
    have hkids : ∀ i, h1.kids i = if i = p then (g.kids p).set n' x else g.kids i := by
      intro i; rw [H.kids]; simp
    have htag : ∀ i, h1.tag i = g.tag i := by intro i; rw [H.tag]; simp
    constructor
    · simp [H.next]
    · intro i; simp [H.tag]
    · intro i; simp [H.value]
    · intro i; simp [H.flags]
    · intro i; simp [H.link]
    · simp [hkids]; exact set_eq_insert_erase x hnl
    · intro i e; simp [hkids, e]
    · exact ⟨n', i, by omega, hi, by simp⟩
    · intro i e
      simp only [parent_setParent, if_neg e, parent_setFams, parent_setItems]
      have := H.par i
      simpa using this
    · simp [H.stale, Wg.stale_none p hne]
    · intro i e; simp [H.stale]
    · refine ⟨F2, by simp, hk, fun t => ?_⟩
      rw [hg]; simp [famView, hkids, htag]
    · intro i e; simp [e, H.fams]
  have hbf : ((g.setParent old none).setItems p (pySet ((g.setParent old none).kids p) (n' : Int) x)).boundFams p = some F := by simp [hb]
  have hps : pySet ((g.setParent old none).kids p) (n' : Int) x = (g.kids p).set n' x := by
    rw [kids_setParent, pySet_nat hnl]
  simp only [hps] at hbf hr
  simp only [hbf, Option.getD_some, tag_setItems, tag_setParent] at hr
  have hceq0 : ∃ F0, CEq (((g.setParent old none).setItems p ((g.kids p).set n' x)).setFams p F0) ((g.setParent old none).setItems p ((g.kids p).set n' x)) := by
    refine ⟨F, ?_⟩
    rw [setFams_self (F := F) (by simpa using hf)]
    exact CEq.refl _
  split at hr
  · next htt =>
    -- same family
    simp only [Prod.mk.injEq, Except.ok.injEq] at hr
    obtain ⟨rfl, rfl⟩ := hr
    refine ⟨rfl, ?_⟩
    have hfo : (F.get? (g.tag x)).getD [] = famView g p (g.tag x) := hO.getD _
    rw [hfo, pySet_nat (by rw [htt]; exact hml)]
    refine key _ _ _ (by omega) hceq0 (Fams.keys_set _ _ _ hO.keys) fun t => ?_
    rw [Fams.get?_set]
    by_cases e : t = g.tag x
    · subst e
      have hfs := filter_set (fun c => decide (g.tag c = g.tag x)) (g.kids p) n' x hnl (by simp) (by simp [hgetn, htt])
      have hm2 : m = (((g.kids p).take n').filter fun c => g.tag c = g.tag x).length := by rw [htt]; exact hmpos
      rw [if_pos rfl]
      rw [hfs, ← hm2]
      have : ¬ (List.set (List.filter (fun c => decide (g.tag c = g.tag x)) (g.kids p)) m x = []) := by
        intro hc
        have := congrArg List.length hc
        simp only [List.length_set, List.length_nil] at this
        rw [htt] at this
        simp only [famView] at hml
        omega
      rw [if_neg this]; rfl
    · rw [if_neg e, hO.get]
      have h1 : ((g.kids p).set n' x).filter (fun c => decide (g.tag c = t)) = famView g p t := by
        rw [set_eq_insert_erase x hnl, filter_insertIdx _ _ _ _ (by rw [List.length_eraseIdx_of_lt hnl]; omega)]
        rw [if_neg (by simpa using fun h => e h.symm), filter_eraseIdx _ _ _ hnl, if_neg (by rw [hgetn, ← htt]; simpa using fun h => e h.symm)]
        rfl
      rw [h1]
  · next htt =>
    have hfam2 : 2 ≤ (famView g p (g.tag old)).length := by
      rcases hfam with h | h
      · exact (htt h).elim
      · exact h
    have hfo : (F.get? (g.tag old)).getD [] = famView g p (g.tag old) := hO.getD _
    rw [hfo, pyDel_nat hml] at hr
    have hF1 := famOK_erase (tagOf := g.tag) hng hO.keys hO.get (F.set (g.tag old) ((famView g p (g.tag old)).eraseIdx m)) (by
      rw [if_neg]
      · rw [hmpos]; rfl
      · simp only [famView] at hfam2; omega)
    generalize F.set (g.tag old) ((famView g p (g.tag old)).eraseIdx m) = F1 at hF1 hr
    have hlen : ((g.kids p).eraseIdx n').length = (g.kids p).length - 1 := List.length_eraseIdx_of_lt hnl
    have fin : ∀ (h1 : Heap) (i : Nat) (l : List Id), (∃ F0, CEq (((g.setParent old none).setItems p ((g.kids p).set n' x)).setFams p F0) h1) →
        l = (((g.kids p).eraseIdx n').filter fun c => g.tag c = g.tag x).insertIdx ((((g.kids p).eraseIdx n').take n').filter fun c => g.tag c = g.tag x).length x →
        AttachRel (((g.setItems p ((g.kids p).eraseIdx n')).setFams p Fd).setParent old none)
        ((h1.setFams p (F1.set (g.tag x) l)).setParent x (some ⟨p, n', i, false⟩)) p x n' := by
      intro h1 i l H hl
      have := famOK_insert (x := x) (F := F1) (L := (g.kids p).eraseIdx n') (n := n') (tagOf := g.tag) (by omega) hF1.1 hF1.2 l hl
      rw [← set_eq_insert_erase x hnl] at this
      exact key _ _ _ (by omega) H this.1 this.2
    split at hr
    · next hgn =>
      simp only [Prod.mk.injEq, Except.ok.injEq] at hr
      obtain ⟨rfl, rfl⟩ := hr
      refine ⟨rfl, ?_⟩
      have hnil : ((g.kids p).eraseIdx n').filter (fun c => g.tag c = g.tag x) = [] := by
        rw [hF1.2] at hgn; by_contra hc; simp [hc] at hgn
      refine fin _ 0 _ ⟨F1, CEq.refl _⟩ ?_
      rw [hnil]
      have : (((g.kids p).eraseIdx n').take n').filter (fun c => g.tag c = g.tag x) = [] := by
        rw [← List.sublist_nil, ← hnil]; exact List.Sublist.filter _ (List.take_sublist _ _)
      rw [this]; rfl
    · next fam hgs =>
      have hnf : fam = ((g.kids p).eraseIdx n').filter (fun c => g.tag c = g.tag x) := by
        rw [hF1.2] at hgs; by_cases hc : ((g.kids p).eraseIdx n').filter (fun c => g.tag c = g.tag x) = []
        · simp [hc] at hgs
        · simp only [hc, if_false, Option.some.injEq] at hgs; exact hgs.symm
      have hnfne : fam ≠ [] := by
        intro e; rw [hF1.2, ← hnf, e] at hgs; simp at hgs
      let h3 := ((g.setParent old none).setItems p ((g.kids p).set n' x)).setFams p F1
      have hk3 : h3.kids p = (g.kids p).set n' x := by simp [h3]
      have hsetnd : ((g.kids p).set n' x).Nodup := by
        rw [set_eq_insert_erase x hnl]
        exact insertIdx_nodup (hnd.sublist (List.eraseIdx_sublist _ _)) (fun h => hxk p (mem_of_eraseIdx h)) (by omega)
      have hpar3 : ∀ y ∈ fam, ∃ r, (h3.node y).parent = some r ∧ r.pid = p ∧ 0 ≤ r.absC := by
        intro y hy
        rw [hnf] at hy
        have hy' := (List.mem_filter.1 hy).1
        obtain ⟨r, h1, h2, _, h4, _⟩ := Wg.kid_parent p y (mem_of_eraseIdx hy')
        have hyo : y ≠ old := fun e => not_mem_eraseIdx hnd hng (e ▸ hy')
        exact ⟨r, by simp [h3, hyo, h1], h2, h4⟩
      have I := idxIs_children (h1 := h3) hk3 hsetnd hpar3
      have P : fam.Pairwise (fun a b => ((g.kids p).set n' x).idxOf a < ((g.kids p).set n' x).idxOf b) := by
        refine List.Pairwise.sublist ?_ (idxOf_pairwise hsetnd)
        rw [hnf]
        refine List.filter_sublist.trans ?_
        rw [set_eq_insert_erase x hnl, insertIdx_split _ _ _ (by omega)]
        conv_lhs => rw [← List.take_append_drop n' ((g.kids p).eraseIdx n')]
        exact List.Sublist.append_left (List.sublist_cons_self _ _) _
      have hidx : (famInsIdx h3 fam (n' : Int)).2 ≠ .error .key ∧ (famInsIdx h3 fam (n' : Int)).2 ≠ .error .index := by
        have : ∀ e, (famInsIdx h3 fam (n' : Int)).2 = .error e → e = .attribute ∨ e = .type := by
          intro e he
          refine famInsIdxAux_err _ _ _ _ _ _ ?_ hnfne (by omega) he
          intro h' H y hy e he
          obtain ⟨r, q1, q2, q3⟩ := hpar3 y hy
          obtain ⟨r', a1, a2, _, a4, _⟩ := H.parent_some q1
          refine idx_err a1 (a4 q3) ?_ he
          rw [H.kids, a2, q2, hk3, set_eq_insert_erase x hnl, mem_insertIdx' (by omega)]
          right
          rw [hnf] at hy; exact (List.mem_filter.1 hy).1
        refine ⟨fun h => ?_, fun h => ?_⟩
        · rcases this _ h with h | h <;> simp at h
        · rcases this _ h with h | h <;> simp at h
      have hfin : ∀ i, (famInsIdx h3 fam (n' : Int)).2 = .ok i → AttachRel (((g.setItems p ((g.kids p).eraseIdx n')).setFams p Fd).setParent old none)
          (((famInsIdx h3 fam (n' : Int)).1.setFams p (F1.set (g.tag x) (pyInsert fam i x))).setParent x (some ⟨p, n', i, false⟩)) p x n' := by
        intro i hi
        refine fin _ i _ ⟨F1, famInsIdx_ceq _ _ _⟩ ?_
        have hcount := famInsIdx_ok I P hi
        have hcb := count_before (L := (g.kids p).eraseIdx n') (x := x) (n := n') (k := (n' : Int)) (q := fun c => g.tag c = g.tag x)
          (hnd.sublist (List.eraseIdx_sublist _ _)) (fun h => hxk p (mem_of_eraseIdx h)) (by omega) (by omega) (fun _ => rfl)
        rw [← set_eq_insert_erase x hnl, ← hnf, ← hcount] at hcb
        rw [pyInsert_nat]
        · rw [hcb, hnf]
        · rw [hcb, hnf]; exact (List.Sublist.filter _ (List.take_sublist _ _)).length_le
      change (match (famInsIdx h3 fam (n' : Int)).2 with
        | Except.ok i => (((famInsIdx h3 fam (n' : Int)).1.setFams p (F1.set (g.tag x) (pyInsert fam i x))).setParent x (some ⟨p, n', i, false⟩), Except.ok x)
        | .error .key => (((famInsIdx h3 fam (n' : Int)).1.setFams p (F1.set (g.tag x) [x])).setParent x (some ⟨p, n', 0, false⟩), Except.ok x)
        | .error .index => (((famInsIdx h3 fam (n' : Int)).1.setFams p (F1.set (g.tag x) [x])).setParent x (some ⟨p, n', 0, false⟩), Except.ok x)
        | .error e => ((famInsIdx h3 fam (n' : Int)).1, Except.error e)) = _ at hr
      split at hr
      · next i hi =>
        simp only [Prod.mk.injEq, Except.ok.injEq] at hr
        obtain ⟨rfl, rfl⟩ := hr
        exact ⟨rfl, hfin i hi⟩
      · next he => exact (hidx.1 he).elim
      · next he => exact (hidx.2 he).elim
      · simp at hr

end ITree
