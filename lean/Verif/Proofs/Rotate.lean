import Verif.Proofs.Ops
/-
rotate, sort, clear.
-/
namespace ITree

/-- result of an operation that only rearranges the children of `p` -/
structure RearrSpec (h h' : Heap) (p : Id) (L : List Id) : Prop where
  wf : WF h'
  kids : h'.kids p = L
  frame : Frame h h' (· = p) (fun _ => False)
  nz : NoZombie h → NoZombie h'
  forest : Forest h → Forest h'
  nocov : NoCover h'

theorem PopSpec.below {h h' : Heap} {p L xs} (S : PopSpec h h' p L xs) (hL : ∀ c ∈ L, c ∈ h.kids p) {x y} (b : Below h' x y) : Below h x y := by
  induction b with
  | refl => exact Below.refl
  | @step q c _ hc ih =>
    refine ih.step ?_
    by_cases e : q = p
    · subst e; rw [S.kids_p] at hc; exact hL c hc
    · rwa [S.kids_o q e] at hc

theorem PopSpec.forest {h h' : Heap} {p L xs} (S : PopSpec h h' p L xs) (hL : ∀ c ∈ L, c ∈ h.kids p) (F : Forest h) : Forest h' := by
  refine F.sub fun q c hc => ?_
  by_cases e : q = p
  · subst e; rw [S.kids_p] at hc; exact hL c hc
  · rwa [S.kids_o q e] at hc

theorem PopSpec.noCover {h h' : Heap} {p L xs} (S : PopSpec h h' p L xs) (N : NoCover h) : NoCover h' := fun y => by
  have := N y; simp only [coverOf, S.link] at this ⊢; exact this

theorem PopSpec.noZombie {h h' : Heap} {p L xs} (S : PopSpec h h' p L xs) (hL : ∀ c ∈ h.kids p, c ∈ L ∨ c ∈ xs) (Z : NoZombie h) : NoZombie h' := by
  intro c q hc
  rw [S.par] at hc
  split at hc
  · simp at hc
  · next hn =>
    have := Z c q hc
    by_cases e : q = p
    · subst e; rw [S.kids_p]; rcases hL c this with h1 | h1; exact h1; exact (hn h1).elim
    · rw [S.kids_o q e]; exact this

theorem par_child {h : Heap} (W : WF h) {p c : Id} (hc : c ∈ h.kids p) : h.par c = some p := by
  obtain ⟨r, r1, r2, _⟩ := W.kid_parent p c hc
  simp [Heap.par, r1, r2]

theorem rotate_pos {h h' : Heap} (W : WF h) (N : NoCover h) {p : Id} (hp : p < h.next) {n : Int} (hn : 0 < n)
    (hg : guardReorder h p = .ok true) (hr : rotate h p n = (h', .ok ())) :
    n.toNat ≤ (h.kids p).length ∧ RearrSpec h h' p ((h.kids p).drop ((h.kids p).length - n.toNat) ++ (h.kids p).take ((h.kids p).length - n.toNat)) := by
  unfold rotate at hr
  simp only [hg, hn, if_true] at hr
  split at hr
  · simp at hr
  · next xs hxs =>
    obtain ⟨a, b, S⟩ := popMany_last n.toNat h (popMany h p (-1) n.toNat).1 xs W N (by rw [← hxs])
    generalize (popMany h p (-1) n.toNat).1 = h1 at *
    have hxr : xs.reverse = (h.kids p).drop ((h.kids p).length - n.toNat) := by rw [b]; simp
    have hLsub : ∀ c ∈ (h.kids p).take ((h.kids p).length - n.toNat), c ∈ h.kids p := fun c hc => List.mem_of_mem_take hc
    have hxsub : ∀ c ∈ xs, c ∈ h.kids p := fun c hc => by
      rw [b, List.mem_reverse] at hc; exact List.mem_of_mem_drop hc
    have hcov : ∀ c ∈ h.kids p, c ∈ (h.kids p).take ((h.kids p).length - n.toNat) ∨ c ∈ xs := fun c hc => by
      rw [b, List.mem_reverse, ← List.mem_append, List.take_append_drop]; exact hc
    have hnd : ((h.kids p).take ((h.kids p).length - n.toNat) ++ (h.kids p).drop ((h.kids p).length - n.toNat)).Nodup := by
      rw [List.take_append_drop]; exact W.kids_nodup p
    have hdis := (List.nodup_append.1 hnd).2.2
    have hargs : ∀ i, Arg.item i ∈ xs.reverse.map Arg.item → i ∈ xs := by intro i hi; simpa using hi
    obtain ⟨zs, X⟩ := extendLeft_spec S.wf (p := p) (by rw [S.next]; exact hp) (as := xs.reverse.map Arg.item)
      (fun i hi => by rw [S.next]; exact W.kids_lt p i (hxsub i (hargs i hi)))
      (fun i hi hm => by
        rw [S.kids_p] at hm
        have := hargs i hi
        rw [b, List.mem_reverse] at this
        exact hdis i hm i this rfl) hr
    have hz : zs = xs.reverse := X.free (by rw [hxr]; exact (W.kids_nodup p).sublist (List.drop_sublist _ _)) (fun i hi => by
      rw [S.par, if_pos (by simpa using hi)])
    have hk : h'.kids p = (h.kids p).drop ((h.kids p).length - n.toNat) ++ (h.kids p).take ((h.kids p).length - n.toNat) := by
      rw [X.kids, hz, hxr, S.kids_p]
    refine ⟨a, X.wf, hk, ?_, fun Z => X.nz (S.noZombie hcov Z), fun F => ?_, X.nocov (S.noCover N)⟩
    · have f := X.frame
      have hnx := S.next
      constructor
      · have := f.next; omega
      · intro i hi; rw [f.tag i (by omega), S.tag]
      · intro i hi; rw [f.value i (by omega), S.value]
      · intro i hi; rw [f.flags i (by omega), S.flags]
      · intro i hi; rw [f.link i (by omega), S.link]
      · intro i hi e; rw [f.kids i (by omega) e, S.kids_o i e]
      · intro i hi _
        by_cases hm : i ∈ xs
        · rw [X.par i (by rw [hz]; simpa using hm), par_child W (hxsub i hm)]
        · rw [f.par i (by omega) (fun hh => hm (hargs i hh)), S.par, if_neg hm]
    · refine X.forest (S.forest hLsub F) fun i hi _ bb => ?_
      exact F.irrefl (hxsub i (hargs i hi)) (S.below hLsub bb)

theorem rotate_neg {h h' : Heap} (W : WF h) (N : NoCover h) {p : Id} (hp : p < h.next) {n : Int} (hn : n < 0)
    (hg : guardReorder h p = .ok true) (hr : rotate h p n = (h', .ok ())) :
    (-n).toNat ≤ (h.kids p).length ∧ RearrSpec h h' p ((h.kids p).drop (-n).toNat ++ (h.kids p).take (-n).toNat) := by
  unfold rotate at hr
  have h0 : ¬ (0 < n) := by omega
  simp only [hg, h0, hn, if_true, if_false] at hr
  split at hr
  · simp at hr
  · next xs hxs =>
    obtain ⟨a, b, S⟩ := popMany_first (-n).toNat h (popMany h p 0 (-n).toNat).1 xs W N (by rw [← hxs])
    generalize (popMany h p 0 (-n).toNat).1 = h1 at *
    generalize (-n).toNat = m at *
    have hLsub : ∀ c ∈ (h.kids p).drop m, c ∈ h.kids p := fun c hc => List.mem_of_mem_drop hc
    have hxsub : ∀ c ∈ xs, c ∈ h.kids p := fun c hc => by rw [b] at hc; exact List.mem_of_mem_take hc
    have hcov : ∀ c ∈ h.kids p, c ∈ (h.kids p).drop m ∨ c ∈ xs := fun c hc => by
      rw [b, or_comm, ← List.mem_append, List.take_append_drop]; exact hc
    unfold extend at hr
    split at hr
    · simp at hr
    · simp only [Prod.mk.injEq, and_true] at hr
      have hargs : ∀ i, Arg.item i ∈ xs.map Arg.item → i ∈ xs := by intro i hi; simpa using hi
      obtain ⟨zs, X⟩ := iterExtend_spec S.wf (p := p) (by rw [S.next]; exact hp) (xs.map Arg.item)
        (fun i hi => by rw [S.next]; exact W.kids_lt p i (hxsub i (hargs i hi)))
      rw [hr] at X
      have hz : zs = xs := X.free (by rw [b]; exact (W.kids_nodup p).sublist (List.take_sublist _ _)) (fun i hi => by
        rw [S.par, if_pos hi])
      have hk : h'.kids p = (h.kids p).drop m ++ (h.kids p).take m := by rw [X.kids, hz, S.kids_p, b]
      refine ⟨a, X.wf, hk, ?_, fun Z => X.nz (S.noZombie hcov Z), fun F => ?_, X.nocov (S.noCover N)⟩
      · have f := X.frame
        have hnx := S.next
        constructor
        · have := f.next; omega
        · intro i hi; rw [f.tag i (by omega), S.tag]
        · intro i hi; rw [f.value i (by omega), S.value]
        · intro i hi; rw [f.flags i (by omega), S.flags]
        · intro i hi; rw [f.link i (by omega), S.link]
        · intro i hi e; rw [f.kids i (by omega) e, S.kids_o i e]
        · intro i hi _
          by_cases hm : i ∈ xs
          · rw [X.par i (by rw [hz]; exact hm), par_child W (hxsub i hm)]
          · rw [f.par i (by omega) (fun hh => hm (hargs i hh)), S.par, if_neg hm]
      · refine X.forest (S.forest hLsub F) fun i hi _ bb => ?_
        exact F.irrefl (hxsub i (hargs i hi)) (S.below hLsub bb)

/-! ### sort -/

/-- the heap in which `sort` re-adds the children -/
def hollow (h : Heap) (p : Id) : Heap := h.modify p fun n => { n with items := [], fams := some [] }

theorem hollow_facts (h : Heap) (p : Id) : (∀ i, (hollow h p).tag i = h.tag i) ∧ (∀ i, ((hollow h p).node i).value = (h.node i).value) ∧
    (∀ i, (hollow h p).flags i = h.flags i) ∧ (∀ i, ((hollow h p).node i).link = (h.node i).link) ∧
    (∀ i, (hollow h p).kids i = if i = p then [] else h.kids i) ∧ (∀ i, (hollow h p).par i = h.par i) := by
  unfold hollow
  refine ⟨?_, ?_, ?_, ?_, ?_, ?_⟩
  · intro i; simp only [Heap.tag, node_modify]; split <;> rfl
  · intro i; simp only [node_modify]; split <;> rfl
  · intro i; simp only [Heap.flags, node_modify]; split <;> rfl
  · intro i; simp only [node_modify]; split <;> rfl
  · intro i; simp only [Heap.kids, node_modify]; split <;> rfl
  · intro i; simp only [Heap.par, node_modify]; split <;> rfl

theorem hollow_below {h : Heap} {p x y : Id} (b : Below (hollow h p) x y) : Below h x y := by
  induction b with
  | refl => exact Below.refl
  | step _ hc ih =>
    rw [(hollow_facts h p).2.2.2.2.1] at hc
    split at hc
    · simp at hc
    · exact ih.step hc

theorem hollow_forest {h : Heap} {p : Id} (F : Forest h) : Forest (hollow h p) := by
  refine F.sub fun q c hc => ?_
  rw [(hollow_facts h p).2.2.2.2.1] at hc
  split at hc
  · simp at hc
  · exact hc

/-- `sort`: the new children are copies of the old ones, in sorted order -/
structure SortSpec (h h' : Heap) (p : Id) (l xs : List Id) : Prop where
  wf : WF h'
  kids : h'.kids p = xs
  len : xs.length = l.length
  fresh : ∀ x ∈ xs, h.next ≤ x
  copies : Forest h → ∀ (j : Nat) (c x : Id), l[j]? = some c → xs[j]? = some x → ∃ T : Tree, T.id = x ∧ Rep h' T ∧ T.shape = (h.tree c).copyShape
  frame : Frame h h' (· = p) (fun _ => False)
  forest : Forest h → Forest h'
  nocov : NoCover h → NoCover h'

theorem sort_spec {h h' : Heap} (W : WF h) {p : Id} (hp : p < h.next) {key rev} (hg : guardReorder h p = .ok true)
    (hr : sort h p key rev = (h', .ok ())) : ∃ xs, SortSpec h h' p (sortKeyed key rev (h.kids p)) xs := by
  unfold sort at hr
  simp only [hg] at hr
  have hr : extend (hollow h p) p ((sortKeyed key rev (h.kids p)).map Arg.item) = (h', .ok ()) := hr
  unfold extend at hr
  split at hr
  · simp at hr
  · simp only [Prod.mk.injEq, and_true] at hr
    have hperm : (sortKeyed key rev (h.kids p)).Perm (h.kids p) := List.mergeSort_perm _ _
    generalize sortKeyed key rev (h.kids p) = l at *
    have hr : iterExtend (hollow h p) p (l.map Arg.item) = h' := hr
    obtain ⟨f1, f2, f3, f4, f5, f6⟩ := hollow_facts h p
    have Wh : WF (hollow h p) := hollow_wf W p _ (fun _ => rfl) (fun _ => rfl) (fun _ => rfl) (fun _ => rfl)
    have hargs : ∀ i, Arg.item i ∈ l.map Arg.item → i ∈ h.kids p := by
      intro i hi; have : i ∈ l := by simpa using hi
      exact hperm.mem_iff.1 this
    obtain ⟨xs, X⟩ := iterExtend_spec Wh (p := p) hp (l.map Arg.item) (fun i hi => W.kids_lt p i (hargs i hi))
    rw [hr] at X
    have hparn : ∀ c ∈ h.kids p, (hollow h p).par c ≠ none := by
      intro c hc; rw [f6, par_child W hc]; simp
    have hjc : ∀ j c, l[j]? = some c → c ∈ h.kids p := fun j c hc => hperm.mem_iff.1 (List.mem_of_getElem? hc)
    have hF : Forest h → Forest h' := fun F => X.forest (hollow_forest F) fun i hi hn => (hparn i (hargs i hi) hn).elim
    have hfr : ∀ x ∈ xs, h.next ≤ x := by
      intro x hx
      obtain ⟨j, hj, e⟩ := List.mem_iff_getElem.1 hx
      have hjl : j < l.length := by have := X.len; simp at this; omega
      have a : (l.map Arg.item)[j]? = some (Arg.item l[j]) := by simp [hjl]
      have b : xs[j]? = some x := by rw [List.getElem?_eq_getElem hj, e]
      exact ((X.each j _ _ a b).2 (Or.inl (hparn _ (hjc j _ (List.getElem?_eq_getElem hjl))))).1
    refine ⟨xs, X.wf, ?_, ?_, hfr, ?_, ?_, hF, ?_⟩
    · rw [X.kids, f5, if_pos rfl, List.nil_append]
    · rw [X.len]; simp
    · intro F j c x hc hx
      have a : (l.map Arg.item)[j]? = some (Arg.item c) := by simp [hc]
      have hcm := hjc j c hc
      have hnb : ¬ Below h c p := F.irrefl hcm
      obtain ⟨T, t1, t2, t3⟩ := ((X.each j _ _ a hx).2 (Or.inl (hparn _ hcm))).2 (hF F) (fun b => hnb (hollow_below b))
      refine ⟨T, t1, t2, ?_⟩
      have Fr : Frame h (hollow h p) (· = p) (fun _ => False) :=
        ⟨Nat.le_refl _, fun i _ => f1 i, fun i _ => f2 i, fun i _ => f3 i, fun i _ => f4 i, fun i _ e => by rw [f5, if_neg e], fun i _ _ => f6 i⟩
      obtain ⟨_, g2, _⟩ := tree_stable W Wh F Fr (W.kids_lt p c hcm) (fun q hq e => hnb (by rw [← e]; exact hq))
      rw [t3, g2]
    · have f := X.frame
      have hnx : (hollow h p).next = h.next := rfl
      constructor
      · exact f.next
      · intro i hi; rw [f.tag i hi, f1]
      · intro i hi; rw [f.value i hi, f2]
      · intro i hi; rw [f.flags i hi, f3]
      · intro i hi; rw [f.link i hi, f4]
      · intro i hi e; rw [f.kids i hi e, f5, if_neg e]
      · intro i hi _
        by_cases hm : i ∈ h.kids p
        · -- a copied child keeps its parent reference
          have hnx : i ∉ xs := fun hx => by have := hfr i hx; omega
          by_cases hin : Arg.item i ∈ l.map Arg.item
          · -- parents of arguments that were copied are unchanged
            have hloop : ∀ (as : List Arg) (g : Heap) (idx : Nat), WF g → p < g.next → (g.node p).stale = none → (∀ i, Arg.item i ∈ as → i < g.next ∧ g.par i ≠ none) →
                ∀ j, j < g.next → g.par j ≠ none → (extendLoop g p idx as).par j = g.par j := by
              intro as
              induction as with
              | nil => intro g idx _ _ _ _ j _ _; rfl
              | cons a as ih =>
                intro g idx Wg hpg hs hv j hj hjp
                simp only [extendLoop]
                have P := extPick_spec Wg a (fun i e => (hv i (by simp [e])).1)
                have A := extendOne_attach Wg hpg hs idx a (fun i e => (hv i (by simp [e])).1)
                have hle : (g.kids p).length ≤ ((extPick g a).1.kids p).length := by
                  rw [P.unchanged.kids p hpg (fun h => h)]
                have hn1 := P.unchanged.next
                have hxge : g.next ≤ (extPick g a).2 := by
                  rcases P.what with ⟨q, e1, e2, _⟩ | ⟨q, _, _, C⟩ | ⟨v, _, A'⟩
                  · exact ((hv q (by simp [e1])).2 e2).elim
                  · have := C.root; omega
                  · have := A'.id; omega
                have hpar : ∀ k, k < g.next → (extendOne g p idx a).par k = g.par k := by
                  intro k hk
                  rw [A.par', if_neg (by omega)]
                  exact P.unchanged.par k hk (fun h => h)
                have W2 := A.wf P.wf (by omega) P.lt hle P.par
                have hnx2 : g.next ≤ (extendOne g p idx a).next := by rw [A.next]; exact hn1
                rw [ih (extendOne g p idx a) (idx + 1) W2 (by omega) A.stale_p (fun k hk => by
                  have := hv k (by simp [hk])
                  exact ⟨by omega, by rw [hpar k this.1]; exact this.2⟩) j (by omega) (by rw [hpar j hj]; exact hjp)]
                exact hpar j hj
            rw [← hr]
            unfold iterExtend
            have hk0 : (hollow h p).kids p = [] := by rw [f5, if_pos rfl]
            simp only [hk0, if_true]
            have O := resetFams_obs (h := hollow h p) p (some []) none
            have hv : ∀ c ∈ h.kids p, ((hollow h p).modify p fun n => { n with fams := some [], stale := none }).par c ≠ none := by
              intro c hc; rw [O.par]; exact hparn c hc
            rw [hloop (l.map Arg.item) _ _ (resetFams_wf Wh p hk0 none) (by rw [O.next]; exact hp) (by simp)
              (fun k hk => ⟨by rw [O.next]; exact W.kids_lt p k (hargs k hk), hv k (hargs k hk)⟩) i (by rw [O.next]; exact hi) (hv i hm)]
            rw [O.par, f6]
          · rw [f.par i hi hin, f6]
        · rw [f.par i hi (fun hin => hm (hargs i hin)), f6]
    · intro N
      apply X.nocov
      intro y
      have := N y; simp only [coverOf, f4] at this ⊢; exact this

/-! ### clear -/

theorem clear_spec {h h' : Heap} (W : WF h) {p : Id} {kv} (hr : clear h p kv = (h', .ok ())) :
    WF h' ∧ h'.kids p = [] ∧ (∀ i, i ≠ p → h'.node i = h.node i) ∧ h'.tag p = h.tag p ∧ h'.par p = h.par p ∧ h'.next = h.next ∧
    (h'.node p).value = (if kv then (h.node p).value else .noValue) ∧ h'.flags p = unsetFlags (h.flags p) Flags.loadLinks ∧
    (NoCover h → NoCover h') := by
  unfold clear at hr
  split at hr
  · simp at hr
  · dsimp only at hr
    -- the heap after the link step
    have step : ∀ h1 : Heap, WF h1 → (h1 = h ∨ h1 = h.modify p fun n => { n with link := n.link.map fun l => { l with loaded := true } }) →
        (if (h1.flags p).has Flags.linked then (h1, Except.error Err.permission) else
          ((if kv then h1.modify p fun n => { n with flags := unsetFlags n.flags Flags.loadLinks, items := [], stale := n.stale.or n.fams, fams := some [] } else
            (h1.modify p fun n => { n with flags := unsetFlags n.flags Flags.loadLinks, items := [], stale := n.stale.or n.fams, fams := some [] }).modify p
              fun n => { n with value := .noValue }), Except.ok ())) = (h', Except.ok ()) →
        WF h' ∧ h'.kids p = [] ∧ (∀ i, i ≠ p → h'.node i = h.node i) ∧ h'.tag p = h.tag p ∧ h'.par p = h.par p ∧ h'.next = h.next ∧
        (h'.node p).value = (if kv then (h.node p).value else .noValue) ∧ h'.flags p = unsetFlags (h.flags p) Flags.loadLinks ∧
        (NoCover h → NoCover h') := by
      intro h1 W1 hh hr
      have hne : ∀ i, i ≠ p → h1.node i = h.node i := by
        intro i e; rcases hh with rfl | rfl
        · rfl
        · simp [e]
      have htag : h1.tag p = h.tag p := by rcases hh with rfl | rfl <;> simp [Heap.tag]
      have hpar : (h1.node p).parent = (h.node p).parent := by rcases hh with rfl | rfl <;> simp
      have hval : (h1.node p).value = (h.node p).value := by rcases hh with rfl | rfl <;> simp
      have hfl : h1.flags p = h.flags p := by rcases hh with rfl | rfl <;> simp [Heap.flags]
      have hnx : h1.next = h.next := by rcases hh with rfl | rfl <;> rfl
      have hnc : NoCover h → NoCover h1 := by
        intro N y
        rcases hh with rfl | rfl
        · exact N y
        · have := N y
          by_cases e : y = p
          · subst e
            simp only [coverOf, node_modify, if_true] at this ⊢
            cases hl : (h.node y).link <;> simp_all
          · simp only [coverOf, node_modify, if_neg e] at this ⊢; exact this
      split at hr
      · simp at hr
      · simp only [Prod.mk.injEq, and_true] at hr
        have W2 := hollow_wf W1 p (fun n => { n with flags := unsetFlags n.flags Flags.loadLinks, items := [], stale := n.stale.or n.fams, fams := some [] })
          (fun _ => rfl) (fun _ => rfl) (fun _ => rfl) (fun _ => rfl)
        simp only [Heap.tag, Heap.flags] at htag hfl
        cases kv
        · simp only [Bool.false_eq_true, if_false] at hr
          have D : DataOnly (fun n : Node => { n with value := .noValue }) := ⟨fun _ => rfl, fun _ => rfl, fun _ => rfl, fun _ => rfl, fun _ => rfl⟩
          have W3 := (D.structEq _ p).wf W2
          subst hr
          refine ⟨W3, by simp [Heap.kids], fun i e => by simp [e, hne i e], by simp [Heap.tag, htag], by simp [Heap.par, hpar], hnx, by simp,
            by simp [Heap.flags, hfl], fun N y => ?_⟩
          have := hnc N y
          by_cases e : y = p
          · subst e; simpa [coverOf] using this
          · simpa [coverOf, e] using this
        · simp only [if_true] at hr
          subst hr
          refine ⟨W2, by simp [Heap.kids], fun i e => by simp [e, hne i e], by simp [Heap.tag, htag], by simp [Heap.par, hpar], hnx, by simp [hval],
            by simp [Heap.flags, hfl], fun N y => ?_⟩
          have := hnc N y
          by_cases e : y = p
          · subst e; simpa [coverOf] using this
          · simpa [coverOf, e] using this
    have D : DataOnly (fun n : Node => { n with link := n.link.map fun l => { l with loaded := true } }) :=
      ⟨fun _ => rfl, fun _ => rfl, fun _ => rfl, fun _ => rfl, fun _ => rfl⟩
    by_cases hl : h.isLinkRoot p = true
    · simp only [hl, if_true] at hr
      exact step _ ((D.structEq h p).wf W) (Or.inr rfl) (by cases kv <;> simpa using hr)
    · simp only [hl] at hr
      exact step h W (Or.inl rfl) (by cases kv <;> simpa using hr)

end ITree
