import Verif.Proofs.Attach
/-
Deleting a child by index.
-/
namespace ITree

/-- the child `x` at position `n` of `p` is taken out -/
structure DetachRel (h h' : Heap) (p x : Id) (n : Nat) : Prop where
  next : h'.next = h.next
  tag : ∀ i, h'.tag i = h.tag i
  value : ∀ i, (h'.node i).value = (h.node i).value
  flags : ∀ i, h'.flags i = h.flags i
  link : ∀ i, (h'.node i).link = (h.node i).link
  at_n : (h.kids p)[n]? = some x
  kids_p : h'.kids p = (h.kids p).eraseIdx n
  kids_o : ∀ i, i ≠ p → h'.kids i = h.kids i
  par_x : (h'.node x).parent = none
  par_o : ∀ i, i ≠ x → PEq (h.node i).parent (h'.node i).parent
  stale : ∀ i, (h'.node i).stale = (h.node i).stale
  fams_p : ∃ F, (h'.node p).fams = some F ∧ (F.map Prod.fst).Nodup ∧
    ∀ t, F.get? t = if famView h' p t = [] then none else some (famView h' p t)
  fams_o : ∀ i, i ≠ p → (h'.node i).fams = (h.node i).fams

/-- a dict without any key is empty -/
theorem Fams.eq_nil {F : Fams} (hg : ∀ t, F.get? t = none) : F = [] := by
  cases F with
  | nil => rfl
  | cons e r => have := hg e.1; simp [Fams.get?] at this

theorem mem_of_eraseIdx {l : List Id} {n : Nat} {y : Id} (h : y ∈ l.eraseIdx n) : y ∈ l := List.mem_of_mem_eraseIdx h

theorem not_mem_eraseIdx {l : List Id} (hl : l.Nodup) {n : Nat} {x : Id} (hx : l[n]? = some x) : x ∉ l.eraseIdx n := by
  obtain ⟨h1, h2⟩ := List.getElem?_eq_some_iff.1 hx
  intro hm
  rw [List.mem_eraseIdx_iff_getElem] at hm
  obtain ⟨i, hi, hne, he⟩ := hm
  exact hne ((List.Nodup.getElem_inj_iff hl).1 (he.trans h2.symm))

theorem mem_eraseIdx_iff {l : List Id} (hl : l.Nodup) {n : Nat} {x : Id} (hx : l[n]? = some x) (y : Id) : y ∈ l.eraseIdx n ↔ y ∈ l ∧ y ≠ x := by
  constructor
  · intro h; exact ⟨mem_of_eraseIdx h, fun e => not_mem_eraseIdx hl hx (e ▸ h)⟩
  · rintro ⟨h1, h2⟩
    obtain ⟨i, hi, he⟩ := List.mem_iff_getElem.1 h1
    rw [List.mem_eraseIdx_iff_getElem]
    refine ⟨i, hi, fun e => h2 ?_, he⟩
    subst e
    rw [List.getElem?_eq_getElem hi] at hx
    simp at hx; rw [← he, hx]

theorem DetachRel.wf {h h' : Heap} {p x : Id} {n : Nat} (A : DetachRel h h' p x n) (W : WF h) : WF h' := by
  have hxm : x ∈ h.kids p := List.mem_of_getElem? A.at_n
  have hpn := W.lt_of_kids (p := p) (by intro e; rw [e] at hxm; simp at hxm)
  have hxn := W.kids_lt p x hxm
  have hnd := W.kids_nodup p
  refine W.update p (by rw [A.next]) ?_ A.kids_o (fun i e _ => A.fams_o i e) ?_ (fun i e _ => A.stale i)
    (fun i _ c _ => A.tag c) ?_ ?_
  · intro y hy
    rw [A.next] at hy
    obtain ⟨h1, h2⟩ := W.fresh y hy
    refine ⟨by rw [A.kids_o y (by omega)]; exact h1, ?_⟩
    have := A.par_o y (by omega)
    rw [h2] at this
    cases h3 : (h'.node y).parent with
    | none => rfl
    | some r => rw [h3] at this; exact this.elim
  · intro i F e h1 h2; rw [A.fams_o i e] at h2; exact W.fams_nil i F h1 h2
  · intro i e c hc; exact A.par_o c (fun e' => e (W.parent_unique (e' ▸ hc) hxm))
  · have hne : h.kids p ≠ [] := by intro e; rw [e] at hxm; simp at hxm
    obtain ⟨F, hF1, hF2, hF3⟩ := A.fams_p
    constructor
    · intro c hc; rw [A.kids_p] at hc; rw [A.next]; exact W.kids_lt p c (mem_of_eraseIdx hc)
    · rw [A.kids_p]; exact hnd.sublist (List.eraseIdx_sublist _ _)
    · intro c hc
      rw [A.kids_p, mem_eraseIdx_iff hnd A.at_n] at hc
      obtain ⟨r, h1, h2, h3, h4, h5⟩ := W.kid_parent p c hc.1
      have := A.par_o c hc.2
      rw [h1] at this
      cases h6 : (h'.node c).parent with
      | none => rw [h6] at this; exact this.elim
      | some r' =>
        rw [h6] at this
        exact ⟨r', rfl, this.1.trans h2, this.2.1.trans h3, this.2.2.1 h4, this.2.2.2 h5⟩
    · intro _; rw [A.stale]; exact W.stale_none p hne
    · intro _; exact ⟨F, hF1, hF2, hF3⟩
    · intro F' hnil hF'
      rw [hF1] at hF'; cases hF'
      apply Fams.eq_nil; intro t; rw [hF3]; simp [famView, hnil]

theorem DetachRel.frame {h h' : Heap} {p x : Id} {n : Nat} (A : DetachRel h h' p x n) : Frame h h' (· = p) (· = x) where
  next := Nat.le_of_eq A.next.symm
  tag i _ := A.tag i
  value i _ := A.value i
  flags i _ := A.flags i
  link i _ := A.link i
  kids i _ e := A.kids_o i e
  par i _ e := by simp only [Heap.par]; exact (A.par_o i e).par

theorem DetachRel.par' {h h' : Heap} {p x : Id} {n : Nat} (A : DetachRel h h' p x n) (i : Id) :
    h'.par i = if i = x then none else h.par i := by
  split
  · next e => subst e; simp [Heap.par, A.par_x]
  · next e => simp only [Heap.par]; exact (A.par_o i e).par

theorem DetachRel.noZombie {h h' : Heap} {p x : Id} {n : Nat} (A : DetachRel h h' p x n) (W : WF h)
    (Z : NoZombie h) : NoZombie h' := by
  intro c q hc
  rw [A.par'] at hc
  split at hc
  · simp at hc
  · next e =>
    have := Z c q hc
    by_cases e' : q = p
    · subst e'; rw [A.kids_p, mem_eraseIdx_iff (W.kids_nodup q) A.at_n]; exact ⟨this, e⟩
    · rw [A.kids_o q e']; exact this

/-! ### the identity search in the family -/

theorem pyIndexFrom_some {eq : Id → Id → Bool} {l : List Id} {x : Id} {s i : Nat} (h : pyIndexFrom eq l x s = some i) :
    s ≤ i ∧ i < l.length := by
  unfold pyIndexFrom at h
  have := List.mem_of_find?_eq_some h
  rw [List.mem_range'_1] at this
  omega

theorem pyIndexFrom_le {eq : Id → Id → Bool} {l : List Id} {x : Id} {s m : Nat} (hm : l[m]? = some x) (hs : s ≤ m) :
    ∃ i, pyIndexFrom eq l x s = some i ∧ i ≤ m := by
  have hml : m < l.length := (List.getElem?_eq_some_iff.1 hm).1
  unfold pyIndexFrom
  cases hf : (List.range' s (l.length - s)).find? fun j => match l[j]? with | some y => y == x || eq y x | none => false with
  | none =>
    rw [List.find?_eq_none] at hf
    have := hf m (by rw [List.mem_range'_1]; omega)
    simp [hm] at this
  | some i =>
    refine ⟨i, rfl, ?_⟩
    by_contra hlt
    rw [List.find?_range'_eq_some] at hf
    have := hf.2.2 m hs (by omega)
    simp [hm] at this

/-- whatever `==` answers, the identity search finds `x` itself -/
theorem identitySearch_spec {eq : Id → Id → Bool} {l : List Id} {x : Id} {m : Nat} (hl : l.Nodup) (hm : l[m]? = some x) :
    ∀ (n s : Nat), s ≤ m → m - s < n → identitySearch eq n l x s = .ok m := by
  intro n
  induction n with
  | zero => intro s _ h; omega
  | succ n ih =>
    intro s hs hn
    obtain ⟨i, h1, h2⟩ := pyIndexFrom_le (eq := eq) hm hs
    have hsi := (pyIndexFrom_some h1).1
    unfold identitySearch
    simp only [h1]
    split
    · next hx =>
      have a := nodup_idxOf_unique hl hx
      have b := nodup_idxOf_unique hl hm
      rw [← a, ← b]
    · next hx =>
      have hne : i ≠ m := fun e => hx (e ▸ hm)
      exact ih (i + 1) (by omega) (by omega)

theorem famPos_spec {eq : Id → Id → Bool} {l : List Id} {x : Id} {m : Nat} {c : Int} (hl : l.Nodup) (hm : l[m]? = some x) (hc : 0 ≤ c) :
    famPos eq l x c = .ok (m : Int) := by
  have hml : m < l.length := (List.getElem?_eq_some_iff.1 hm).1
  have hs := identitySearch_spec (eq := eq) hl hm l.length 0 (by omega) (by omega)
  unfold famPos
  simp only [hs]
  split
  · next hlt =>
    have hg : pyGet l c = l[c.toNat]? := by simp [pyGet, hc]
    rw [hg]
    have : c.toNat < l.length := by omega
    rw [List.getElem?_eq_getElem this]
    split
    · simp_all
    · next y hy =>
      simp at hy
      split
      · next e =>
        have : l[c.toNat]? = some x := by rw [List.getElem?_eq_getElem this, hy, e]
        have := nodup_idxOf_unique hl this
        have := nodup_idxOf_unique hl hm
        congr 1; omega
      · rfl
  · rfl

/-- the position of a child in its family -/
theorem famView_pos {h : Heap} {p x : Id} {n : Nat} (hn : (h.kids p)[n]? = some x) :
    (famView h p (h.tag x))[(((h.kids p).take n).filter fun c => h.tag c = h.tag x).length]? = some x := by
  obtain ⟨h1, h2⟩ := List.getElem?_eq_some_iff.1 hn
  have h0 : famView h p (h.tag x) = ((h.kids p).take n).filter (fun c => h.tag c = h.tag x) ++
      ((h.kids p).drop n).filter (fun c => h.tag c = h.tag x) := by
    rw [← List.filter_append, List.take_append_drop]; rfl
  rw [h0, List.drop_eq_getElem_cons h1, List.filter_cons_of_pos (by simp [h2])]
  rw [List.getElem?_append_right (Nat.le_refl _)]
  simp [h2]

theorem famOK_erase {tagOf : Id → Tag} {x : Id} {F : Fams} {L : List Id} {n : Nat} (hn : L[n]? = some x)
    (hkeys : (F.map Prod.fst).Nodup)
    (hget : ∀ t, F.get? t = if L.filter (fun c => tagOf c = t) = [] then none else some (L.filter fun c => tagOf c = t)) (F' : Fams)
    (hF' : F' = if (L.filter fun c => tagOf c = tagOf x).length = 1 then F.del (tagOf x) else F.set (tagOf x)
      ((L.filter fun c => tagOf c = tagOf x).eraseIdx ((L.take n).filter fun c => tagOf c = tagOf x).length)) :
    (F'.map Prod.fst).Nodup ∧ ∀ t, F'.get? t =
      if (L.eraseIdx n).filter (fun c => tagOf c = t) = [] then none else some ((L.eraseIdx n).filter fun c => tagOf c = t) := by
  obtain ⟨h1, h2⟩ := List.getElem?_eq_some_iff.1 hn
  have hlt : ((L.take n).filter fun c => tagOf c = tagOf x).length < (L.filter fun c => tagOf c = tagOf x).length := by
    have h0 : L.filter (fun c => tagOf c = tagOf x) = (L.take n).filter (fun c => tagOf c = tagOf x) ++
        (L.drop n).filter (fun c => tagOf c = tagOf x) := by rw [← List.filter_append, List.take_append_drop]
    rw [h0, List.drop_eq_getElem_cons h1, List.filter_cons_of_pos (by simp [h2])]
    simp
  split at hF'
  · next hone =>
    subst hF'
    refine ⟨Fams.keys_del _ _ hkeys, fun t => ?_⟩
    rw [Fams.get?_del, filter_eraseIdx _ _ _ h1, h2]
    by_cases e : t = tagOf x
    · subst e
      have : (L.filter fun c => tagOf c = tagOf x).eraseIdx ((L.take n).filter fun c => tagOf c = tagOf x).length = [] := by
        apply List.eq_nil_of_length_eq_zero
        rw [List.length_eraseIdx_of_lt hlt]; omega
      simp [this]
    · have : ¬ (tagOf x = t) := fun e' => e e'.symm
      simp only [e, this, if_false, decide_false, Bool.false_eq_true]
      exact hget t
  · next hone =>
    subst hF'
    refine ⟨Fams.keys_set _ _ _ hkeys, fun t => ?_⟩
    rw [Fams.get?_set, filter_eraseIdx _ _ _ h1, h2]
    by_cases e : t = tagOf x
    · subst e
      have : (L.filter fun c => tagOf c = tagOf x).eraseIdx ((L.take n).filter fun c => tagOf c = tagOf x).length ≠ [] := by
        intro hnil
        have := congrArg List.length hnil
        rw [List.length_eraseIdx_of_lt hlt] at this
        simp only [List.length_nil] at this; omega
      simp [this]
    · have : ¬ (tagOf x = t) := fun e' => e e'.symm
      simp only [e, this, if_false, decide_false, Bool.false_eq_true]
      exact hget t

/-- removal from the family always succeeds on a well-formed heap and gives a detachment -/
theorem dropFromFamily_spec {h : Heap} (W : WF h) {p x : Id} {n : Nat} (hn : (h.kids p)[n]? = some x) :
    ∃ h', dropFromFamily (h.setItems p ((h.kids p).eraseIdx n)) p x = (h', .ok x) ∧ DetachRel h h' p x n := by
  have hxm : x ∈ h.kids p := List.mem_of_getElem? hn
  have hne : h.kids p ≠ [] := by intro e; rw [e] at hxm; simp at hxm
  obtain ⟨F, hb, hf, hO⟩ := W.bound hne
  obtain ⟨r, hr1, hr2, hr3, hr4, hr5⟩ := W.kid_parent p x hxm
  have hg := hO.get_of_mem hxm
  have hfnd : (famView h p (h.tag x)).Nodup := (W.kids_nodup p).sublist List.filter_sublist
  have hpos := famView_pos hn
  let m := (((h.kids p).take n).filter fun c => h.tag c = h.tag x).length
  have hml : m < (famView h p (h.tag x)).length := (List.getElem?_eq_some_iff.1 hpos).1
  have key : ∀ F', F' = (if (famView h p (h.tag x)).length = 1 then F.del (h.tag x) else F.set (h.tag x) ((famView h p (h.tag x)).eraseIdx m)) →
      DetachRel h (((h.setItems p ((h.kids p).eraseIdx n)).setFams p F').setParent x none) p x n := by
    intro F' hF'
    have hfo := famOK_erase (tagOf := h.tag) (F := F) hn hO.keys hO.get F' hF'
    constructor
    · rfl
    · intro i; simp
    · intro i; simp
    · intro i; simp
    · intro i; simp
    · exact hn
    · simp
    · intro i e; simp [e]
    · simp
    · intro i e; simp [e]; exact PEq.refl _
    · intro i; simp
    · refine ⟨F', by simp, hfo.1, fun t => ?_⟩
      rw [hfo.2]
      simp [famView]
    · intro i e; simp [e]
  unfold dropFromFamily
  simp only [tag_setItems, boundFams_setItems, hb, Option.getD_some, hg]
  split
  · next hone => exact ⟨_, rfl, key _ (by rw [if_pos hone])⟩
  · next hone =>
    simp only [parent_setItems, hr1]
    rw [famPos_spec hfnd hpos hr5]
    exact ⟨_, rfl, key _ (by rw [if_neg hone, pyDel_nat hml])⟩

/-- a successful deletion by index -/
theorem delInt_ok {h h' : Heap} (W : WF h) {p x : Id} {k : Int} (hc : ∀ c ∈ h.kids p, coverOf h c = none)
    (hr : delInt h p k = (h', .ok x)) : ∃ n, pyPos (h.kids p).length k = some n ∧ DetachRel h h' p x n := by
  unfold delInt at hr
  split at hr
  · simp at hr
  · split at hr
    · simp at hr
    · split at hr
      · simp at hr
      · next pos hpos =>
        split at hr
        · simp at hr
        · next y hy =>
          split at hr
          · simp at hr
          · simp only [hc y (List.mem_of_getElem? hy)] at hr
            obtain ⟨h1, e1, D⟩ := dropFromFamily_spec W hy
            rw [e1] at hr
            simp at hr
            obtain ⟨rfl, rfl⟩ := hr
            exact ⟨pos, hpos, D⟩

/-- a deletion by index that fails changes nothing -/
theorem delInt_err {h h' : Heap} (W : WF h) {p : Id} {k : Int} {e : Err} (hc : ∀ c ∈ h.kids p, coverOf h c = none)
    (hr : delInt h p k = (h', .error e)) : h' = h := by
  unfold delInt at hr
  split at hr
  · simp at hr; exact hr.1.symm
  · split at hr
    · simp at hr; exact hr.1.symm
    · split at hr
      · simp at hr; exact hr.1.symm
      · next pos hpos =>
        split at hr
        · simp at hr; exact hr.1.symm
        · next y hy =>
          split at hr
          · simp at hr; exact hr.1.symm
          · simp only [hc y (List.mem_of_getElem? hy)] at hr
            obtain ⟨h1, e1, D⟩ := dropFromFamily_spec W hy
            rw [e1] at hr
            simp at hr

/-- when a deletion by index succeeds -/
theorem delInt_succ {h : Heap} (W : WF h) {p : Id} {k : Int} {n : Nat} {x : Id} {lr : Bool} (hc : ∀ c ∈ h.kids p, coverOf h c = none)
    (hg : guardDel h p = .ok lr) (hn : pyPos (h.kids p).length k = some n) (hx : (h.kids p)[n]? = some x)
    (hf : (lr && isForeign h x) = false) : ∃ h', delInt h p k = (h', .ok x) := by
  obtain ⟨h1, e1, D⟩ := dropFromFamily_spec W hx
  have hne : h.kids p ≠ [] := by intro e; rw [e] at hx; simp at hx
  refine ⟨h1, ?_⟩
  unfold delInt
  simp only [hg, hne, if_false, hn, hx, hf, Bool.false_eq_true, hc x (List.mem_of_getElem? hx), e1]

end ITree
