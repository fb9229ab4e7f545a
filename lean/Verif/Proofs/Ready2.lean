import Verif.Proofs.Ready
/-
Link roots that can be loaded in any order: the load itself.
-/
namespace ITree
section
variable {h g f : Heap} {E A X Y : Id → Prop} {m k : Nat} {p : Id}

/-! ### a link that is up to date -/

theorem setParent_self {h : Heap} {x : Id} {r : PRef} (e : (h.node x).parent = some r) : h.setParent x (some r) = h := by
  have : (fun i => if i = x then { h.node i with parent := some r } else h.node i) = h.node := by
    funext i
    split
    · next e' => subst e'; rw [← e]
    · rfl
  obtain ⟨n, f⟩ := h
  simp only [Heap.setParent, Heap.modify, Heap.mk.injEq] at this ⊢
  exact ⟨this, trivial⟩

/-- numbering the children writes nothing new if all positions are known -/
theorem itemsLoop_same (f : Id → Bool) : ∀ (l : List Id) (pre : List Id) (h : Heap) (cs : List (Tag × Nat)),
    (∀ k x, l[k]? = some x → ∃ r, (h.node x).parent = some r ∧ r.frozen = false ∧ r.famC = (((pre ++ l.take k).filter fun y => h.tag y = h.tag x).length : Nat)) →
    (∀ x ∈ l, cs.lookup (h.tag x) = some ((pre.filter fun y => h.tag y = h.tag x).length)) → (itemsLoop f h l cs).1 = h := by
  intro l
  induction l with
  | nil => intro pre h cs _ _; rfl
  | cons x xs ih =>
    intro pre h cs hs hc
    obtain ⟨r, hr, hf, ha⟩ := hs 0 x rfl
    obtain ⟨cs', b1, b2⟩ := bump_spec (hc x (by simp))
    simp only [List.take_zero, List.append_nil] at ha
    have e : h.setParent x (some { r with famC := (((pre.filter fun y => h.tag y = h.tag x).length : Nat) : Int) }) = h := by
      rw [← ha]; exact setParent_self hr
    have := ih (pre ++ [x]) h cs' (fun k y hy => by
        obtain ⟨r', g1, g2, g3⟩ := hs (k + 1) y hy
        exact ⟨r', g1, g2, by rw [g3]; simp⟩)
      (fun y hy => by
        rw [b2]
        have := hc y (by simp [hy])
        rw [List.filter_append]
        by_cases ey : h.tag y = h.tag x
        · rw [if_pos ey, ey]; simp
        · rw [if_neg ey, this]; simp [show ¬ h.tag x = h.tag y from fun e => ey e.symm])
    rw [hf] at e
    simp only [itemsLoop, b1, hr, hf, e]
    simp only [Bool.false_eq_true, if_false]
    split <;> exact this

theorem items_same {h : Heap} (W : WF h) (F : AllFresh h) {p : Id} (f : Id → Bool) : (itemsOf h p f).1 = h := by
  unfold itemsOf
  cases hF : (h.node p).fams with
  | none => rfl
  | some F' =>
    refine itemsLoop_same f (h.kids p) [] h (F'.map fun e => (e.1, 0)) (fun k x hx => ?_) (fun x hx => ?_)
    · have hm := List.mem_of_getElem? hx
      obtain ⟨r, a, _, b, c, _⟩ := W.kid_parent p x hm
      obtain ⟨r', e1, e2, e3⟩ := F p x hm
      rw [a, Option.some.injEq] at e1
      subst e1
      refine ⟨r, a, b, ?_⟩
      have hg := filter_take_get (q := fun y => decide (h.tag y = h.tag x)) hx (by simp)
      have nd : (famView h p (h.tag x)).Nodup := (W.kids_nodup p).filter _
      obtain ⟨l1, q1⟩ := List.getElem?_eq_some_iff.1 e3
      obtain ⟨l2, q2⟩ := List.getElem?_eq_some_iff.1 hg
      have := (List.Nodup.getElem_inj_iff nd).1 (q1.trans q2.symm)
      simp only [PRef.getC] at this e2
      rw [List.nil_append, ← this]; omega
    · have hk : h.kids p ≠ [] := List.ne_nil_of_mem hx
      obtain ⟨F'', a, O⟩ := W.fams_ok p hk
      rw [hF] at a; cases a
      have m := O.key (t := h.tag x) (List.ne_nil_of_mem (mem_famView.2 ⟨hx, rfl⟩))
      have hm : ∀ (F : Fams) t l, (t, l) ∈ F → (F.map fun e => (e.1, 0)).lookup t = some 0 := by
        intro F t l
        induction F with
        | nil => simp
        | cons a r ih =>
          obtain ⟨k, v⟩ := a
          intro hm
          simp only [List.map_cons, List.lookup_cons]
          cases hk : t == k with
          | true => rfl
          | false =>
            rcases List.mem_cons.1 hm with e | hm
            · cases e; simp at hk
            · exact ih hm
      simpa using hm F' _ _ m

theorem loaded_again (fe : FileEnv) (C : Core h) (F : AllFresh h) {p s : Id} {lk : LinkSt} (n : Nat) (hl : (h.node p).link = some lk) (ho : lk.OwnTree) (hd : lk.loaded = true)
    (hp : dropRoot (h.tag (h.root p)) lk.path = lk.path) (L : LeadsTo h (h.root p) (dropRoot (h.tag (h.root p)) lk.path) s) (hk : lk.keys = (numbered h s).map Prod.fst) :
    loadLinks (linkEnv fe) false (n + 1) h p = (h, .ok false) := by
  have hact : loadActive (linkEnv fe) h p lk false = (h, .ok false) := by
    have hc : (linkEnv fe).changed h p = .ok false := by simp only [linkEnv, fileUpdated, hl, ho.the]
    have hf : (linkEnv fe).find h p = (h, .ok s) := by
      have e := (getTarget_keeps C fe hl ho).1
      rw [getTarget_ok C fe hl ho L, setLink_id hl (by rw [hp])] at e
      exact e
    rw [loadActive]
    simp only [hd, Bool.not_true, Bool.or_false, Bool.false_eq_true, if_false, hc, hf]
    split
    · rfl
    · have hlen : (h.kids s).length = lk.keys.length := by rw [hk, ← numbered_items h s, List.length_map, List.length_map]
      rw [if_neg (by simp [hlen])]
      split
      · rfl
      · next h0 =>
        obtain ⟨h', e, _⟩ := items_ok C.wf (by obtain ⟨F, hF, _⟩ := C.wf.fams_ok s h0; rw [hF]; simp) (fun _ => true)
        obtain rfl : h' = h := by have := items_same C.wf F (p := s) fun _ => true; rw [e] at this; exact this
        have : keysOf h' s (fun _ => true) = (h', .ok lk.keys) := by
          rw [keysOf, e]
          simp only [List.filter_true, hk, Except.map]
        simp [this]
  simp only [loadLinks, hl, hact]

/-! ### copies -/

theorem mem_preL_ready {l : List Tree} {t : Tree} : t ∈ Tree.preL l ↔ ∃ k ∈ l, t ∈ k.pre := by
  induction l with
  | nil => simp [Tree.preL]
  | cons k l ih => simp [Tree.preL, ih]


theorem ids_linked {T : Tree} (R : Rep h T) (H : ∀ x ∈ T.pre.map Tree.facts, x.2.2.has Flags.linked = true) : ∀ i ∈ T.ids, (h.flags i).has Flags.linked = true := by
  induction T using Tree.ind with
  | H i t v f l ks ih =>
    intro j hj
    simp only [Rep, repL_iff] at R
    rw [Tree.ids_node] at hj
    rcases List.mem_cons.1 hj with rfl | hj
    · rw [R.2.2.1]
      exact H (t, v, f) (by simp [Tree.pre, Tree.facts, Tree.tag, Tree.value, Tree.flags])
    · obtain ⟨k, hk, hj⟩ := Tree.mem_idsL.1 hj
      refine ih k hk (R.2.2.2.2.2 k hk) (fun x hx => H x ?_) j hj
      simp only [Tree.pre, List.map_cons, List.mem_cons, List.mem_map] at hx ⊢
      obtain ⟨U, hU, rfl⟩ := hx
      exact .inr ⟨U, mem_preL_ready.2 ⟨k, hk, hU⟩, rfl⟩

theorem facts_linked {T : Tree} (R : Rep h T) (H : ∀ i ∈ T.ids, (h.flags i).has Flags.linked = true) : ∀ x ∈ T.pre.map Tree.facts, x.2.2.has Flags.linked = true := by
  induction T using Tree.ind with
  | H i t v f l ks ih =>
    intro x hx
    simp only [Rep, repL_iff] at R
    simp only [Tree.pre, List.map_cons, List.mem_cons, List.mem_map] at hx
    rcases hx with rfl | ⟨U, hU, rfl⟩
    · have := H i (by rw [Tree.ids_node]; simp)
      rw [R.2.2.1] at this
      exact this
    · obtain ⟨k, hk, hU⟩ := mem_preL_ready.1 hU
      exact ih k hk (R.2.2.2.2.2 k hk) (fun i hi => H i (by rw [Tree.ids_node]; exact List.mem_cons_of_mem _ (Tree.mem_idsL.2 ⟨k, hk, hi⟩))) _ (List.mem_map.2 ⟨U, hU, rfl⟩)

/-- the copy of a child of the source -/
theorem linkedItem_ready {load : Heap → Id → Res Bool} (C : Core g) (Z : NoZombie g) (F : AllFresh g) {c : Id} (hc : c < g.next) (hl : (g.flags c).has Flags.linked = false) (hA : g.isLinkRoot c = true → CanLoad g A m c)
    (HL : g.isLinkRoot c = true → ∃ g1 b lk, load g c = (g1, .ok b) ∧ Touch (fun _ => False) A g g1 ∧ (∀ i, i < g.next → g1.par i = g.par i) ∧ CanLoad g1 A m c ∧ (g1.node c).link = some lk ∧ lk.loaded = true) :
    ∃ g' x T, linkedItem load g c = (g', .ok x) ∧ Touch (fun _ => False) A g g' ∧ (∀ i, i < g.next → g'.par i = g.par i) ∧ (g'.node x).parent = none ∧ Tree.id T = x ∧ Rep g' T ∧
      (∀ i ∈ T.ids, g.next ≤ i ∧ i < g'.next ∧ (g'.flags i).has Flags.linked = true) ∧ ShowsItem g c T := by
  cases hr : g.isLinkRoot c with
  | false =>
    obtain ⟨f1, f2, f3, f4, f5⟩ := tree_flags C c
    have e := linkedItem_plain load g c (by simpa [Heap.isLinkRoot] using hr) hl f1
    have B := build_spec C.wf (linkedTree (g.tree c))
    obtain ⟨T, t1, t2, t3, t4⟩ := B.rep
    have e2 : T.pre.map Tree.facts = (g.tree c).pre.map Tree.linkedData := by
      rw [shape_facts t3, linkedTree, linkClone]
      simp only [Tree.pre, List.map_cons, chainUp_facts]
      generalize g.tree c = U
      obtain ⟨i, t, v, f, l, ks⟩ := U
      rfl
    have lkd : ∀ x ∈ T.pre.map Tree.facts, x.2.2.has Flags.linked = true := by
      rw [e2]
      intro x hx
      obtain ⟨U, _, rfl⟩ := List.mem_map.1 hx
      simp only [Tree.linkedData]
      generalize U.flags = f; revert f; decide
    have lki := ids_linked t2 lkd
    refine ⟨_, _, T, e, .of C Z (build_lkeeps C _) (F.build C.wf _) (Frame.loadsOnly (B.unchanged.mono (fun _ => False.elim) (fun _ => id)) (fun _ _ => id)) (fun _ => False.elim), (fun i hi => B.unchanged.par i hi id), B.par, t1, t2,
      fun i hi => ⟨(t4 i hi).1, (t4 i hi).2, lki i hi⟩, ?_⟩
    have e3 : T.facts = (g.tree c).linkedData := by
      have := congrArg List.head? e2
      obtain ⟨i, t, v, f, l, ks⟩ := T
      generalize g.tree c = U at this ⊢
      obtain ⟨i', t', v', f', l', ks'⟩ := U
      simpa [Tree.pre, Tree.facts, Tree.linkedData] using this
    simp only [Tree.facts, Tree.linkedData, f1, f2, f3, Prod.mk.injEq] at e3
    exact .item hr e3.1 e3.2.1 (by rw [e3.2.2]; generalize g.flags c = f; revert f; decide) fun _ => e2
  | true =>
    obtain ⟨g1, b, lk, eL, T1, P1, R1, l1, l2⟩ := HL hr
    have K := T1.keeps
    have A1 := T1.only
    have back : ∀ {c : Id} {T : Tree}, ShowsItem g1 c T → c < g.next → (g.isLinkRoot c = true → ∃ m, CanLoad g A m c) → ShowsItem g c T := T1.back C Z (fun _ => False.elim)
    obtain ⟨s0, Sc, Sc1, sl, sr, sk⟩ := T1.src C Z (hA hr) (fun _ => False.elim)
    have ek := A1.kids s0 sl (T1.free' sr)
    have up : ∃ Ts : List Tree, g1.kids c = Ts.map Tree.id ∧ (∀ T ∈ Ts, Rep g1 T ∧ ∀ i ∈ T.ids, (g1.flags i).has Flags.linked = true) ∧ ShowsAll g1 (g1.kids s0) Ts := by
      cases R1 with
      | @mk _ _ s lk' a b c d e f u v w l n st =>
        rw [l1, Option.some.injEq] at e
        subst e
        obtain rfl := Source.unique Sc1 ⟨lk, l1, v.to⟩
        rcases st with ⟨x, _⟩ | ⟨_, _, _, x⟩
        · rw [l2] at x; cases x
        · exact x
    obtain ⟨Ts, k1, k2, k4, k5⟩ := up
    rw [ek] at k4 k5
    obtain ⟨f1, f2, f3, f4, f5⟩ := tree_flags K.core c
    have eT : (g1.tree c).kids = Ts := trees_unique f5 (fun T hT => (k2 T hT).1) (f4.trans k1)
    have B := build_spec K.core.wf (g1.tree c)
    have K2 := build_lkeeps K.core (g1.tree c)
    have F2 := T1.fresh.build K.core.wf (g1.tree c)
    have A2 : LoadsOnly (fun _ => False) g1 (build g1 (g1.tree c)).1 := Frame.loadsOnly B.unchanged (fun _ _ => id)
    have el : linkedItem load g c = ((build g1 (g1.tree c)).1.modify (build g1 (g1.tree c)).2 fun n => { n with flags := n.flags ||| Flags.linked }, .ok (build g1 (g1.tree c)).2) := by
      rw [linkedItem, if_pos hr, eL]; rfl
    rw [el]
    have hx : g1.next ≤ (build g1 (g1.tree c)).2 := Nat.le_of_eq B.root.symm
    obtain ⟨U, u1, u2, u3, u4⟩ := B.rep
    have px := B.par
    generalize (build g1 (g1.tree c)).2 = x at *
    generalize (build g1 (g1.tree c)).1 = g2 at *
    have K3 := flags_lkeeps K2.core x fun f => f ||| Flags.linked
    have A3 : LoadsOnly (fun _ => False) g1 (g2.modify x fun n => { n with flags := n.flags ||| Flags.linked }) := by
      have ne : ∀ i, i < g1.next → i ≠ x := fun i hi => by omega
      refine ⟨A2.next, fun i hi => ?_, fun i hi => ?_, fun i hi => ?_, fun i hi => ?_, fun i hi hn => ?_, fun i hi hn => ?_⟩
      · rw [← A2.tag i hi]; simp only [Heap.tag, node_modify, if_neg (ne i hi)]
      · rw [← A2.value i hi]; simp only [node_modify, if_neg (ne i hi)]
      · rw [← A2.flags i hi]; simp only [Heap.flags, node_modify, if_neg (ne i hi)]
      · rw [← A2.par i hi]; simp only [Heap.par, node_modify, if_neg (ne i hi)]
      · rw [← A2.kids i hi hn]; simp only [Heap.kids, node_modify, if_neg (ne i hi)]
      · rw [← A2.link i hi hn]; simp only [node_modify, if_neg (ne i hi)]
    have T3 : Touch (fun _ => False) A g1 (g2.modify x fun n => { n with flags := n.flags ||| Flags.linked }) := .of K.core (K.nz Z) (K2.trans K3) (F2.flags x fun f => f ||| Flags.linked) A3 (fun _ => False.elim)
    have nd := u2.ids_nodup K2.core.wf K2.core.forest
    obtain ⟨i, t, v, f, l, us⟩ := U
    simp only [Tree.id] at u1
    subst u1
    have hs : t = g1.tag c ∧ v = (g1.node c).value ∧ us.map Tree.shape = Ts.map Tree.copyShape := by
      rw [← f2, ← f3, ← eT]
      generalize g1.tree c = V at u3 ⊢
      obtain ⟨i', t', v', f', l', ks'⟩ := V
      simp only [Tree.shape, Tree.copyShape, Shape.node.injEq, shapeL_eq, copyShapeL_eq] at u3
      exact ⟨u3.1, u3.2.1, u3.2.2.2.2⟩
    rw [A1.tag c hc, A1.value c hc] at hs
    have len : us.length = Ts.length := by have := congrArg List.length hs.2.2; simpa using this
    have R3 : Rep (g2.modify i fun n => { n with flags := n.flags ||| Flags.linked }) (.node i t v (f ||| Flags.linked) l us) := by
      simp only [Rep, Heap.tag, Heap.flags, Heap.kids, node_modify, if_true] at u2 ⊢
      obtain ⟨r1, r2, r3, r4, r5, r6⟩ := u2
      refine ⟨r1, r2, by rw [r3], r4, r5, (repL_iff us).2 fun k hk => ((repL_iff us).1 r6 k hk).congr fun j hj => ?_⟩
      have ne : j ≠ i := fun e => by
        rw [Tree.ids_node, List.nodup_cons] at nd
        exact nd.1 (e ▸ Tree.mem_idsL.2 ⟨k, hk, hj⟩)
      simp only [Heap.tag, Heap.flags, Heap.kids, node_modify, if_neg ne, and_self]
    have pair : ∀ (n : Nat) k, us[n]? = some k → ∃ U, Ts[n]? = some U ∧ k.shape = U.copyShape := by
      intro n k hk
      have hi : n < Ts.length := by rw [← len]; exact (List.getElem?_eq_some_iff.1 hk).1
      have e2 := congrArg (fun l => l[n]?) hs.2.2
      simp only [List.getElem?_map, hk, List.getElem?_eq_getElem hi, Option.map_some, Option.some.injEq] at e2
      exact ⟨_, List.getElem?_eq_getElem hi, e2⟩
    have lkd := ids_linked R3 fun x hx => by
      simp only [Tree.pre, List.map_cons, List.mem_cons, List.mem_map] at hx
      rcases hx with rfl | ⟨V, hV, rfl⟩
      · simp only [Tree.facts, Tree.flags]; generalize f = f'; revert f'; decide
      · obtain ⟨k, hk, hV⟩ := mem_preL_ready.1 hV
        obtain ⟨n, hn⟩ := List.mem_iff_getElem?.1 hk
        obtain ⟨U, hU, e⟩ := pair n k hn
        obtain ⟨y1, y2⟩ := k2 U (List.mem_of_getElem? hU)
        refine facts_linked y1 y2 _ ?_
        rw [← shape_facts e]
        exact List.mem_map.2 ⟨V, hV, rfl⟩
    refine ⟨_, i, _, rfl, T1.trans T3 C Z (fun _ => False.elim), (fun i hi => (A3.par i (Nat.lt_of_lt_of_le hi A1.next)).trans (P1 i hi)), by simp only [node_modify]; split <;> exact px, rfl, R3, fun j hj => ?_, ?_⟩
    · rw [Tree.ids_node] at hj
      have := u4 j (by rw [Tree.ids_node]; exact hj)
      exact ⟨Nat.le_trans A1.next this.1, this.2, lkd j (by rw [Tree.ids_node]; exact hj)⟩
    · refine .link hr hs.1 hs.2.1 (by simp only [Tree.flags]; generalize f = f'; revert f'; decide) Sc (len.trans k4) fun n d k hd hk => ?_
      simp only [Tree.kids] at hk
      obtain ⟨U, hU, e⟩ := pair n k hk
      have hm := List.mem_of_getElem? hd
      exact (back (k5 n d U hd hU) (C.wf.kids_lt _ d hm) fun hr => sk d hm hr).copy e
end
end ITree
