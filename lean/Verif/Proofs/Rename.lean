import Verif.Proofs.Rotate
/-
rename.
-/
namespace ITree

/-- `x` gets the tag `g`; nothing else changes -/
structure RetagSpec (h h' : Heap) (x : Id) (g : Tag) : Prop where
  wf : WF h'
  next : h'.next = h.next
  tag : ∀ i, h'.tag i = if i = x then g else h.tag i
  value : ∀ i, (h'.node i).value = (h.node i).value
  flags : ∀ i, h'.flags i = h.flags i
  link : ∀ i, (h'.node i).link = (h.node i).link
  kids : ∀ i, h'.kids i = h.kids i
  par : ∀ i, h'.par i = h.par i

theorem RetagSpec.noZombie {h h' : Heap} {x g} (S : RetagSpec h h' x g) (Z : NoZombie h) : NoZombie h' := fun c p hc => by
  rw [S.kids]; rw [S.par] at hc; exact Z c p hc
theorem RetagSpec.forest {h h' : Heap} {x g} (S : RetagSpec h h' x g) (F : Forest h) : Forest h' := F.sub fun q c hc => by rwa [S.kids] at hc
theorem RetagSpec.noCover {h h' : Heap} {x g} (S : RetagSpec h h' x g) (N : NoCover h) : NoCover h' := fun y => by
  have := N y; simp only [coverOf, S.link] at this ⊢; exact this

theorem pyRemove_spec {eq : Id → Id → Bool} {x : Id} : ∀ {l : List Id} {n : Nat}, l[n]? = some x → (∀ y ∈ l.take n, eq y x = false) → l.Nodup →
    pyRemove eq x l = some (l.eraseIdx n) := by
  intro l
  induction l with
  | nil => intro n hn; simp at hn
  | cons a l ih =>
    intro n hn he hl
    simp only [pyRemove]
    cases n with
    | zero => simp at hn; simp [hn]
    | succ n =>
      simp at hn
      have hax : a ≠ x := fun e => (List.nodup_cons.1 hl).1 (e ▸ List.mem_of_getElem? hn)
      have h1 : eq a x = false := he a (by simp)
      have h2 : (a == x) = false := by simpa using hax
      rw [h1, h2]
      simp only [Bool.or_self, Bool.false_eq_true, if_false]
      rw [ih hn (fun y hy => he y (by simp [hy])) (List.nodup_cons.1 hl).2]
      simp

theorem insertIdx_eraseIdx_self {l : List Id} {n : Nat} {x : Id} (hn : l[n]? = some x) : (l.eraseIdx n).insertIdx n x = l := by
  obtain ⟨h1, h2⟩ := List.getElem?_eq_some_iff.1 hn
  rw [List.eraseIdx_eq_take_drop_succ, insertIdx_split _ _ _ (by simp; omega)]
  rw [List.take_append_of_le_length (by simp; omega), List.drop_append_of_le_length (by simp; omega)]
  rw [List.take_take, Nat.min_self, List.drop_take_self, List.nil_append, ← h2, ← List.drop_eq_getElem_cons h1, List.take_append_drop]

/-- families after changing the tag of the child at position `n` -/
theorem famOK_retag {tagOf tagOf' : Id → Tag} {x : Id} {g : Tag} {F1 : Fams} {L : List Id} {n : Nat} (hn : L[n]? = some x) (hL : L.Nodup)
    (htag : ∀ c, tagOf' c = if c = x then g else tagOf c) (hkeys : (F1.map Prod.fst).Nodup)
    (hget : ∀ t, F1.get? t = if (L.eraseIdx n).filter (fun c => tagOf c = t) = [] then none else some ((L.eraseIdx n).filter fun c => tagOf c = t))
    (l : List Id) (hl : l = ((L.eraseIdx n).filter fun c => tagOf c = g).insertIdx (((L.eraseIdx n).take n).filter fun c => tagOf c = g).length x) :
    ((F1.set g l).map Prod.fst).Nodup ∧ ∀ t, (F1.set g l).get? t =
      if L.filter (fun c => tagOf' c = t) = [] then none else some (L.filter fun c => tagOf' c = t) := by
  have hnl : n < L.length := (List.getElem?_eq_some_iff.1 hn).1
  have hx := not_mem_eraseIdx hL hn
  have hcong : ∀ t, (L.eraseIdx n).filter (fun c => tagOf' c = t) = (L.eraseIdx n).filter (fun c => tagOf c = t) := by
    intro t; apply List.filter_congr; intro c hc
    have hcx : c ≠ x := fun e => hx (e ▸ hc)
    rw [htag, if_neg hcx]
  have hcong' : ∀ t, ((L.eraseIdx n).take n).filter (fun c => tagOf' c = t) = ((L.eraseIdx n).take n).filter (fun c => tagOf c = t) := by
    intro t; apply List.filter_congr; intro c hc
    have hcx : c ≠ x := fun e => hx (e ▸ List.mem_of_mem_take hc)
    rw [htag, if_neg hcx]
  have hgx : tagOf' x = g := by rw [htag, if_pos rfl]
  have := famOK_insert (x := x) (F := F1) (L := L.eraseIdx n) (n := n) (tagOf := tagOf') (by rw [List.length_eraseIdx_of_lt hnl]; omega) hkeys
    (fun t => by rw [hget, hcong]) l (by rw [hgx, hcong, hcong']; exact hl)
  rw [hgx, insertIdx_eraseIdx_self hn] at this
  exact this

/-- `rename` of a child of `p` at position `n`: succeeds unless protected, provided no earlier member of the family compares equal (`==`) -/
theorem rename_child {h : Heap} (W : WF h) {p x : Id} {n : Nat} {g : Tag} (hn : (h.kids p)[n]? = some x)
    (heq : ∀ y ∈ h.kids p, h.tag y = h.tag x → y ≠ x → h.eqItem y x = false) :
    (h.isProtected p = true ∧ rename h x g = (h, .error .permission)) ∨ ∃ h', rename h x g = (h', .ok ()) ∧ RetagSpec h h' x g := by
  have hxm : x ∈ h.kids p := List.mem_of_getElem? hn
  have hne : h.kids p ≠ [] := by intro e; rw [e] at hxm; simp at hxm
  obtain ⟨r, r1, r2, r3, r4, r5⟩ := W.kid_parent p x hxm
  obtain ⟨F, hb, hf, hO⟩ := W.bound hne
  have hg := hO.get_of_mem hxm
  have hnd := W.kids_nodup p
  have hnl : n < (h.kids p).length := (List.getElem?_eq_some_iff.1 hn).1
  have hfnd : (famView h p (h.tag x)).Nodup := hnd.sublist List.filter_sublist
  have hpos := famView_pos hn
  have hbad : (h.isProtected p && (if h.isLinkRoot p = true then h.linkLoaded p && ((h.linkTags p).contains g || isForeign h x) else true)) = true →
      h.isProtected p = true := fun hb => (Bool.and_eq_true_iff.1 hb).1
  unfold rename
  simp only [r1, r2]
  generalize (h.isProtected p && (if h.isLinkRoot p = true then h.linkLoaded p && ((h.linkTags p).contains g || isForeign h x) else true)) = bad at hbad ⊢
  cases bad
  case true => left; exact ⟨hbad rfl, if_pos rfl⟩
  case false =>
    right
    simp only [hf, hg, Bool.false_eq_true, if_false]
    -- the families without x
    have hF1 : ∃ F1, (if (famView h p (h.tag x)).length = 1 then some (F.del (h.tag x))
        else (pyRemove h.eqItem x (famView h p (h.tag x))).map fun l => F.set (h.tag x) l) = some F1 ∧ 
        (F1.map Prod.fst).Nodup ∧ ∀ t, F1.get? t =
          if ((h.kids p).eraseIdx n).filter (fun c => h.tag c = t) = [] then none else some (((h.kids p).eraseIdx n).filter fun c => h.tag c = t) := by
      have hpr := pyRemove_spec (eq := h.eqItem) hpos (fun y hy => by
        have h1 := List.mem_of_mem_take hy
        have h2 := List.mem_filter.1 h1
        refine heq y h2.1 (by simpa using h2.2) fun e => ?_
        subst e
        have := idxOf_lt_of_mem_take hy
        rw [nodup_idxOf_unique hfnd hpos] at this
        omega) hfnd
      rw [hpr]
      refine ⟨if (famView h p (h.tag x)).length = 1 then F.del (h.tag x) else F.set (h.tag x) ((famView h p (h.tag x)).eraseIdx
        (List.filter (fun c => decide (h.tag c = h.tag x)) (List.take n (h.kids p))).length), ?_, famOK_erase (tagOf := h.tag) hn hO.keys hO.get _ rfl⟩
      by_cases hc : (famView h p (h.tag x)).length = 1
      · rw [if_pos hc, if_pos hc]
      · rw [if_neg hc, if_neg hc]; rfl
    obtain ⟨F1, e1, k1, g1⟩ := hF1
    rw [e1]
    dsimp only
    have hO1 : ObsEq h (h.setFams p F1) := 
      ⟨rfl, fun i => by simp, fun i => by simp, fun i => by simp, fun i => by simp, fun i => by simp, fun i => by simp⟩
    -- facts of the heap after the tag change, up to caches
    have key : ∀ (h1 h' : Heap) (F' : Fams) (r' : PRef), CEq ((h.setFams p F1).modify x fun n => { n with tag := g }) h1 →
        r'.pid = p → r'.frozen = false → 0 ≤ r'.absC → 0 ≤ r'.famC →
        h' = ((h1.setFams p F').setParent x (some r')) →
        (F'.map Prod.fst).Nodup → (∀ t, F'.get? t = if (h.kids p).filter (fun c => (if c = x then g else h.tag c) = t) = [] then none
          else some ((h.kids p).filter fun c => (if c = x then g else h.tag c) = t)) → RetagSpec h h' x g := by
      intro h1 h' F' r' H p1 p2 p3 p4 hh' hk' hg'
      have mkids : ∀ i, ((h.setFams p F1).modify x fun n => { n with tag := g }).kids i = h.kids i := by
        intro i; simp only [Heap.kids, node_modify]
        split
        · rw [← Heap.kids]; simp [Heap.kids]
          have := kids_setFams h p i F1; simpa [Heap.kids] using this
        · have := kids_setFams h p i F1; simpa [Heap.kids] using this
      have mtag : ∀ i, ((h.setFams p F1).modify x fun n => { n with tag := g }).tag i = if i = x then g else h.tag i := by
        intro i; simp only [Heap.tag, node_modify]
        split
        · rfl
        · have := tag_setFams h p i F1; simpa [Heap.tag] using this
      have mval : ∀ i, (((h.setFams p F1).modify x fun n => { n with tag := g }).node i).value = (h.node i).value := by
        intro i; simp only [node_modify]; split <;> simp
      have mflags : ∀ i, ((h.setFams p F1).modify x fun n => { n with tag := g }).flags i = h.flags i := by
        intro i; simp only [Heap.flags, node_modify]
        split <;> (have := flags_setFams h p i F1; simpa [Heap.flags] using this)
      have mlink : ∀ i, (((h.setFams p F1).modify x fun n => { n with tag := g }).node i).link = (h.node i).link := by
        intro i; simp only [node_modify]; split <;> simp
      have mpar : ∀ i, (((h.setFams p F1).modify x fun n => { n with tag := g }).node i).parent = (h.node i).parent := by
        intro i; simp only [node_modify]; split <;> simp
      have mstale : ∀ i, (((h.setFams p F1).modify x fun n => { n with tag := g }).node i).stale = (h.node i).stale := by
        intro i; simp only [node_modify]; split <;> simp
      have mfams : ∀ i, i ≠ p → (((h.setFams p F1).modify x fun n => { n with tag := g }).node i).fams = (h.node i).fams := by
        intro i e; simp only [node_modify]; split <;> simp [e]
      have mnext : ((h.setFams p F1).modify x fun n => { n with tag := g }).next = h.next := rfl
      generalize ((h.setFams p F1).modify x fun n => { n with tag := g }) = m at H mkids mtag mval mflags mlink mpar mstale mfams mnext
      have ktag : ∀ i, h'.tag i = if i = x then g else h.tag i := by intro i; rw [hh']; simp [H.tag, mtag]
      have kkids : ∀ i, h'.kids i = h.kids i := by intro i; rw [hh']; simp [H.kids, mkids]
      have kpar : ∀ i, PEq (h.node i).parent (h'.node i).parent := by
        intro i
        rw [hh', parent_setParent, parent_setFams]
        split
        · next e => subst e; rw [r1]; exact ⟨by rw [p1, r2], by rw [p2, r3], fun _ => p3, fun _ => p4⟩
        · have := H.par i; rwa [mpar] at this
      refine ⟨?_, by rw [hh']; simp [H.next, mnext], ktag, fun i => by rw [hh']; simp [H.value, mval], fun i => by rw [hh']; simp [H.flags, mflags],
        fun i => by rw [hh']; simp [H.link, mlink], kkids, fun i => by simp only [Heap.par]; exact (kpar i).par⟩
      have hnx : h'.next = h.next := by rw [hh']; simp [H.next, mnext]
      refine W.update p (by rw [hnx]) ?_ (fun i _ => kkids i) ?_ ?_ ?_ ?_ (fun i _ c _ => kpar c) ?_
      · intro y hy
        rw [hnx] at hy
        obtain ⟨a, b⟩ := W.fresh y hy
        have := kpar y
        rw [b] at this
        refine ⟨by rw [kkids]; exact a, ?_⟩
        cases h3 : (h'.node y).parent with
        | none => rfl
        | some r => rw [h3] at this; exact this.elim
      · intro i e _; rw [hh']; simp only [fams_setParent, fams_setFams, if_neg e, H.fams]; exact mfams i e
      · intro i F0 e a b; rw [hh'] at b; simp only [fams_setParent, fams_setFams, if_neg e, H.fams, mfams i e] at b; exact W.fams_nil i F0 a b
      · intro i _ _; rw [hh']; simp only [stale_setParent, stale_setFams, H.stale, mstale]
      · intro i e c hc; rw [ktag, if_neg]; rintro rfl; exact e (W.parent_unique hc hxm)
      · constructor
        · intro c hc; rw [hnx]; rw [kkids] at hc; exact W.kids_lt p c hc
        · rw [kkids]; exact hnd
        · intro c hc
          rw [kkids] at hc
          obtain ⟨q, q1, q2, q3, q4, q5⟩ := W.kid_parent p c hc
          have := kpar c
          rw [q1] at this
          cases h6 : (h'.node c).parent with
          | none => rw [h6] at this; exact this.elim
          | some r' =>
            rw [h6] at this
            exact ⟨r', rfl, this.1.trans q2, this.2.1.trans q3, this.2.2.1 q4, this.2.2.2 q5⟩
        · intro _; rw [hh']; simp only [stale_setParent, stale_setFams, H.stale, mstale]; exact W.stale_none p hne
        · intro _
          refine ⟨F', by rw [hh']; simp, hk', fun t => ?_⟩
          rw [hg']; simp only [famView, kkids, ktag]
        · intro F0 hnil _; rw [kkids] at hnil; exact (hne hnil).elim
    split
    · next hgn =>
      simp only [r3, Bool.false_eq_true, if_false]
      have hnil : ((h.kids p).eraseIdx n).filter (fun c => h.tag c = g) = [] := by
        rw [g1] at hgn; by_contra hc; simp [hc] at hgn
      have hrt := famOK_retag (tagOf := h.tag) (tagOf' := fun c => if c = x then g else h.tag c) (g := g) hn hnd (fun c => rfl) k1 g1 [x] (by
        rw [hnil]
        have : (((h.kids p).eraseIdx n).take n).filter (fun c => h.tag c = g) = [] := by
          rw [← List.sublist_nil, ← hnil]; exact List.Sublist.filter _ (List.take_sublist _ _)
        rw [this]; rfl)
      refine ⟨_, rfl, key _ _ (F1.set g [x]) { r with famC := 0 } (CEq.refl _) r2 r3 r4 (by simp) ?_ hrt.1 hrt.2⟩
      rw [r2, r3]
    · next nf hgs =>
      have hnf : nf = ((h.kids p).eraseIdx n).filter (fun c => h.tag c = g) := by
        rw [g1] at hgs; by_cases hc : ((h.kids p).eraseIdx n).filter (fun c => h.tag c = g) = []
        · simp [hc] at hgs
        · simp only [hc, if_false, Option.some.injEq] at hgs; exact hgs.symm
      have hnfne : nf ≠ [] := by
        intro e; rw [g1, ← hnf, e] at hgs; simp at hgs
      -- reading positions in the changed heap
      let h1 := (h.setFams p F1).modify x fun n => { n with tag := g }
      have hk1 : ∀ i, h1.kids i = h.kids i := by
        intro i; simp only [h1, Heap.kids, node_modify]
        split <;> (have := kids_setFams h p i F1; simpa [Heap.kids] using this)
      have hp1 : ∀ i, (h1.node i).parent = (h.node i).parent := by
        intro i; simp only [h1, node_modify]; split <;> simp
      have hsc1 : Scannable h1 (h.kids p) := fun y hy => by
        obtain ⟨q, q1, _, q3, _⟩ := W.kid_parent p y hy
        exact ⟨q, by rw [hp1]; exact q1, q3⟩
      have idxAll : ∀ h2, CEq h1 h2 → ∀ y ∈ h.kids p, (h2.idx y).2 = .ok (some (((h.kids p).idxOf y : Nat) : Int)) := by
        intro h2 H y hy
        obtain ⟨q, q1, q2, q3, q4, q5⟩ := W.kid_parent p y hy
        obtain ⟨q', a1, a2, a3, a4, a5⟩ := H.parent_some (i := y) (r := q) (by rw [hp1]; exact q1)
        have hkk : h2.kids q'.pid = h.kids p := by rw [H.kids, hk1, a2, q2]
        obtain ⟨i, b, hi⟩ := cachedPos_succ (c := .abs) (h := h2) (x := y) (r := q') (l := h2.kids q'.pid) (a4 q4)
          (by rw [hkk]; exact hsc1.ceq H) (a3.trans q3) (by rw [hkk]; exact hy)
        have hid : (h2.idx y).2 = .ok (some i) := by unfold Heap.idx; simp only [a1, hi]
        obtain ⟨m, e1, e2⟩ := idx_ok a1 (a4 q4) hid
        rw [hkk] at e2
        rw [hid, e1, nodup_idxOf_unique hnd e2]
      show ∃ h', (match (h1.idx x).2 with
        | .error e => ((h1.idx x).1, Except.error e)
        | .ok none => ((h1.idx x).1, Except.error Err.type)
        | .ok (some k) =>
          match (famInsIdx (h1.idx x).1 nf k).2 with
          | .error e => ((famInsIdx (h1.idx x).1 nf k).1, Except.error e)
          | .ok j =>
            match (((famInsIdx (h1.idx x).1 nf k).1.setFams p (F1.set g (pyInsert nf j x))).node x).parent with
            | none => ((famInsIdx (h1.idx x).1 nf k).1.setFams p (F1.set g (pyInsert nf j x)), Except.error Err.type)
            | some r' =>
              if r'.frozen then ((famInsIdx (h1.idx x).1 nf k).1.setFams p (F1.set g (pyInsert nf j x)), Except.error Err.type)
              else (((famInsIdx (h1.idx x).1 nf k).1.setFams p (F1.set g (pyInsert nf j x))).setParent x (some { r' with famC := j }), Except.ok ())) = _ ∧ _
      have hix := idxAll h1 (CEq.refl _) x hxm
      rw [nodup_idxOf_unique hnd hn] at hix
      rw [hix]
      dsimp only
      have H1 : CEq h1 (h1.idx x).1 := idx_ceq _ _
      have hnfsub : ∀ y ∈ nf, y ∈ h.kids p := fun y hy => by rw [hnf] at hy; exact mem_of_eraseIdx (List.mem_filter.1 hy).1
      obtain ⟨j, hj⟩ := famInsIdx_succ (h := (h1.idx x).1) (fam := nf) (k := (n : Int)) (fun h2 H y hy => ⟨_, idxAll h2 (H1.trans H) y (hnfsub y hy)⟩) hnfne
      rw [hj]
      dsimp only
      have H2 : CEq h1 (famInsIdx (h1.idx x).1 nf (n : Int)).1 := H1.trans (famInsIdx_ceq _ _ _)
      obtain ⟨r', a1, a2, a3, a4, a5⟩ := H2.parent_some (i := x) (r := r) (by rw [hp1]; exact r1)
      rw [parent_setFams, a1]
      dsimp only
      rw [a3, r3]
      simp only [Bool.false_eq_true, if_false]
      have hcount : j = nf.countP (fun y => (((h.kids p).idxOf y : Nat) : Int) < (n : Int)) := by
        refine famInsIdx_ok (pos := fun y => (h.kids p).idxOf y) ?_ ?_ hj
        · intro h2 H y hy i hi
          have := idxAll h2 (H1.trans H) y (hnfsub y hy)
          rw [this] at hi; simpa using hi.symm
        · rw [hnf]
          exact List.Pairwise.sublist (List.filter_sublist.trans (List.eraseIdx_sublist _ _)) (idxOf_pairwise hnd)
      have hx0 := not_mem_eraseIdx hnd hn
      have hlen0 : ((h.kids p).eraseIdx n).length = (h.kids p).length - 1 := List.length_eraseIdx_of_lt hnl
      have hcb := count_before (L := (h.kids p).eraseIdx n) (x := x) (n := n) (k := (n : Int)) (q := fun c => h.tag c = g)
        (hnd.sublist (List.eraseIdx_sublist _ _)) hx0 (by omega) (by omega) (fun _ => rfl)
      rw [insertIdx_eraseIdx_self hn, ← hnf, ← hcount] at hcb
      have hrt := famOK_retag (tagOf := h.tag) (tagOf' := fun c => if c = x then g else h.tag c) (g := g) hn hnd (fun c => rfl) k1 g1
        (pyInsert nf (j : Int) x) (by
          rw [pyInsert_nat]
          · rw [hcb, hnf]
          · rw [hcb, hnf]; exact (List.Sublist.filter _ (List.take_sublist _ _)).length_le)
      exact ⟨_, rfl, key _ _ _ { r' with famC := j } H2 (a2.trans r2) (a3.trans r3) (a4 r4) (Int.natCast_nonneg j) (by rw [a3, r3]) hrt.1 hrt.2⟩

/-- `rename` of an item without parent -/
theorem rename_free {h : Heap} (W : WF h) {x : Id} {g : Tag} (hx : (h.node x).parent = none) :
    ∃ h', rename h x g = (h', .ok ()) ∧ RetagSpec h h' x g := by
  unfold rename
  simp only [hx]
  refine ⟨_, rfl, ?_⟩
  have hk : ∀ i, (h.modify x fun n => { n with tag := g }).kids i = h.kids i := by
    intro i; simp only [Heap.kids, node_modify]; split <;> rfl
  have hpar : ∀ i, ((h.modify x fun n => { n with tag := g }).node i).parent = (h.node i).parent := by
    intro i; simp only [node_modify]; split <;> rfl
  have htag : ∀ i, (h.modify x fun n => { n with tag := g }).tag i = if i = x then g else h.tag i := by
    intro i; simp only [Heap.tag, node_modify]; split <;> rfl
  have hfm : ∀ i, ((h.modify x fun n => { n with tag := g }).node i).fams = (h.node i).fams := by
    intro i; simp only [node_modify]; split <;> rfl
  have hst : ∀ i, ((h.modify x fun n => { n with tag := g }).node i).stale = (h.node i).stale := by
    intro i; simp only [node_modify]; split <;> rfl
  have hct : ∀ i c, c ∈ h.kids i → (h.modify x fun n => { n with tag := g }).tag c = h.tag c := by
    intro i c hc; rw [htag, if_neg]; rintro rfl; exact W.not_child hx i hc
  refine ⟨?_, rfl, htag, ?_, ?_, ?_, hk, ?_⟩
  · constructor
    · intro y hy; rw [hk, hpar]; exact W.fresh y hy
    · intro p c hc; rw [hk] at hc; exact W.kids_lt p c hc
    · intro p; rw [hk]; exact W.kids_nodup p
    · intro p c hc; rw [hk] at hc; rw [hpar]; exact W.kid_parent p c hc
    · intro p hp; rw [hk] at hp; rw [hst]; exact W.stale_none p hp
    · intro p hp
      rw [hk] at hp
      obtain ⟨F, h1, h2⟩ := W.fams_ok p hp
      refine ⟨F, by rw [hfm, h1], h2.keys, fun t => ?_⟩
      have : famView (h.modify x fun n => { n with tag := g }) p t = famView h p t := by
        simp only [famView, hk]; apply List.filter_congr; intro c hc; rw [hct p c hc]
      rw [this]; exact h2.get t
    · intro p F hp hF; rw [hk] at hp; rw [hfm] at hF; exact W.fams_nil p F hp hF
  · intro i; simp only [node_modify]; split <;> rfl
  · intro i; simp only [Heap.flags, node_modify]; split <;> rfl
  · intro i; simp only [node_modify]; split <;> rfl
  · intro i; simp only [Heap.par, hpar]

end ITree
