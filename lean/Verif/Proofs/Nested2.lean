import Verif.Proofs.Nested
import Verif.Proofs.Deep
import Verif.Proofs.AllFresh
/-
Loading links whose targets contain link roots: the loop over the children and the whole call.
-/
namespace ITree
section
variable {h g : Heap} {X : Id → Prop}

/-- the outcome `r` of loading the link root `p` -/
def Loads (g : Heap) (p : Id) (D : Id → Prop) (fits : Prop) (r : Res Bool) : Prop :=
  LKeeps g r.1 ∧ LoadsOnly D g r.1 ∧ (AllFresh g → AllFresh r.1 ∧ (fits → ∃ b, r.2 = .ok b)) ∧ ∀ b, r.2 = .ok b → b = true ∧ ∃ (s : Id) (Ts : List Tree), Source g p s ∧ r.1.kids p = Ts.map Tree.id ∧ (∀ T ∈ Ts, Rep r.1 T) ∧ (∀ T ∈ Ts, ∀ i ∈ T.ids, g.next ≤ i ∧ i < r.1.next) ∧
    Ts.length = (g.kids s).length ∧ ∀ (i : Nat) d k, (g.kids s)[i]? = some d → Ts[i]? = some k → ShowsItem g d k

theorem Frame.loadsOnly {h h' : Heap} {K P : Id → Prop} (F : Frame h h' K P) (hP : ∀ i, i < h.next → ¬ P i) : LoadsOnly K h h' :=
  ⟨F.next, F.tag, F.value, F.flags, fun i hi => F.par i hi (hP i hi), F.kids, fun i hi _ => F.link i hi⟩

theorem build_lkeeps (C : Core h) (T : Tree) : LKeeps h (build h T).1 :=
  ⟨(build_spec C.wf T).keeps C, fun s => by
    have A := NI.alloc s (nodeOut_copy (N := fun _ => False) (Q := False) T)
    exact (A.1.trans (NI.buildKids _ A.1.sep A.2)).sep⟩

theorem flags_lkeeps (C : Core h) (x : Id) (f : Flags → Flags) : LKeeps h (h.modify x fun n => { n with flags := f n.flags }) := by
  have S : StructEq h (h.modify x fun n => { n with flags := f n.flags }) := DataOnly.structEq (f := fun n => { n with flags := f n.flags }) ⟨fun _ => rfl, fun _ => rfl, fun _ => rfl, fun _ => rfl, fun _ => rfl⟩ h x
  exact ⟨S.keeps C fun i => by simp only [node_modify]; split <;> rfl, fun s => .mk' fun i F e => s.nil (i := i) (by rw [← S.stale]; exact e)⟩

theorem AllFresh.build (F : AllFresh h) (W : WF h) (T : Tree) : AllFresh (build h T).1 := by
  have A := copyNode_alloc h T
  simp only [ITree.build]
  refine buildKids_fresh _ _ _ (A.wf W) ?_ (F.alloc W _ rfl rfl)
  simp [Heap.alloc]

theorem AllFresh.flags (F : AllFresh h) (x : Id) (f : Flags → Flags) : AllFresh (h.modify x fun n => { n with flags := f n.flags }) :=
  F.structEq (DataOnly.structEq (f := fun n => { n with flags := f n.flags }) ⟨fun _ => rfl, fun _ => rfl, fun _ => rfl, fun _ => rfl, fun _ => rfl⟩ h x)

theorem tree_flags (C : Core h) (c : Id) : (h.tree c).flags = h.flags c ∧ (h.tree c).tag = h.tag c ∧ (h.tree c).value = (h.node c).value ∧ (h.tree c).kids.map Tree.id = h.kids c ∧ ∀ k ∈ (h.tree c).kids, Rep h k := by
  have R := tree_rep C.wf C.forest c
  have hid := tree_id h c
  generalize h.tree c = T at R hid
  obtain ⟨i, t, v, f, l, ks⟩ := T
  simp only [Tree.id] at hid; subst hid
  simp only [Rep, repL_iff] at R
  exact ⟨R.2.2.1.symm, R.1.symm, R.2.1.symm, R.2.2.2.2.1.symm, R.2.2.2.2.2⟩

theorem trees_unique {h : Heap} : ∀ {Ts Us : List Tree}, (∀ T ∈ Ts, Rep h T) → (∀ U ∈ Us, Rep h U) → Ts.map Tree.id = Us.map Tree.id → Ts = Us
  | [], [], _, _, _ => rfl
  | [], _ :: _, _, _, e => by simp at e
  | _ :: _, [], _, _, e => by simp at e
  | T :: Ts, U :: Us, a, b, e => by
    simp only [List.map_cons, List.cons.injEq] at e
    rw [Rep.unique (a T (by simp)) (b U (by simp)) e.1, trees_unique (fun T h => a T (by simp [h])) (fun U h => b U (by simp [h])) e.2]

theorem linkedItem_loads {load : Heap → Id → Res Bool} (C : Core g) {c : Id} {D : Id → Prop} {fits : Prop} (hc : c < g.next) (hl : (g.flags c).has Flags.linked = false)
    (HL : g.isLinkRoot c = true → Loads g c D fits (load g c)) :
    LKeeps g (linkedItem load g c).1 ∧ LoadsOnly (fun i => g.isLinkRoot c = true ∧ D i) g (linkedItem load g c).1 ∧
      (AllFresh g → AllFresh (linkedItem load g c).1 ∧ (fits → ∃ x, (linkedItem load g c).2 = .ok x)) ∧ ∀ x, (linkedItem load g c).2 = .ok x →
      ((linkedItem load g c).1.node x).parent = none ∧ ∃ T : Tree, T.id = x ∧ Rep (linkedItem load g c).1 T ∧ (∀ i ∈ T.ids, g.next ≤ i ∧ i < (linkedItem load g c).1.next) ∧ ShowsItem g c T := by
  cases hr : g.isLinkRoot c with
  | false =>
    obtain ⟨f1, f2, f3, f4, f5⟩ := tree_flags C c
    have e := linkedItem_plain load g c (by simpa [Heap.isLinkRoot] using hr) hl f1
    have B := build_spec C.wf (linkedTree (g.tree c))
    rw [e]
    refine ⟨build_lkeeps C _, Frame.loadsOnly (B.unchanged.mono (fun _ => False.elim) (fun _ => id)) (fun _ _ => id),
      fun F => ⟨F.build C.wf _, fun _ => ⟨_, rfl⟩⟩, fun x hx => ?_⟩
    simp only [Except.ok.injEq] at hx
    subst hx
    obtain ⟨T, t1, t2, t3, t4⟩ := B.rep
    refine ⟨B.par, T, t1, t2, t4, ?_⟩
    have e2 : T.pre.map Tree.facts = (g.tree c).pre.map Tree.linkedData := by
      rw [shape_facts t3, linkedTree, linkClone]
      simp only [Tree.pre, List.map_cons, chainUp_facts]
      generalize g.tree c = U
      obtain ⟨i, t, v, f, l, ks⟩ := U
      rfl
    have e3 : T.facts = (g.tree c).linkedData := by
      have := congrArg List.head? e2
      obtain ⟨i, t, v, f, l, ks⟩ := T
      generalize g.tree c = U at this ⊢
      obtain ⟨i', t', v', f', l', ks'⟩ := U
      simpa [Tree.pre, Tree.facts, Tree.linkedData] using this
    simp only [Tree.facts, Tree.linkedData, f1, f2, f3, Prod.mk.injEq] at e3
    exact .item hr e3.1 e3.2.1 (by rw [e3.2.2]; generalize g.flags c = f; revert f; decide) fun _ => e2
  | true =>
    obtain ⟨K, A, hfr, hok⟩ := HL hr
    rw [linkedItem, if_pos hr]
    generalize load g c = r at K A hfr hok ⊢
    obtain ⟨g1, er | b⟩ := r
    · cases er <;> exact ⟨K, A.mono fun i _ d => ⟨rfl, d⟩, fun F => ⟨(hfr F).1, fun ft => by obtain ⟨b, e⟩ := (hfr F).2 ft; cases e⟩, fun x hx => by cases hx⟩
    · obtain ⟨rfl, s, Ts, Sc, k1, k2, k3, k4, k5⟩ := hok b rfl
      simp only at K A k1 k2 k3 ⊢
      obtain ⟨f1, f2, f3, f4, f5⟩ := tree_flags K.core c
      have eT : (g1.tree c).kids = Ts := trees_unique f5 k2 (f4.trans k1)
      have B := build_spec K.core.wf (g1.tree c)
      have K2 := build_lkeeps K.core (g1.tree c)
      have F2 : AllFresh g → AllFresh (build g1 (g1.tree c)).1 := fun F => (hfr F).1.build K.core.wf _
      have A2 : LoadsOnly (fun _ => False) g1 (build g1 (g1.tree c)).1 := Frame.loadsOnly B.unchanged (fun _ _ => id)
      simp only [copyItem]
      generalize (build g1 (g1.tree c)).2 = x at *
      generalize (build g1 (g1.tree c)).1 = g2 at *
      have K3 := flags_lkeeps K2.core x fun f => f ||| Flags.linked
      have hx : g1.next ≤ x := Nat.le_of_eq B.root.symm
      have A3 : LoadsOnly D g (g2.modify x fun n => { n with flags := n.flags ||| Flags.linked }) := by
        have A12 := (A.trans A2).mono (Y := D) fun i _ hi => hi.resolve_right id
        have ne : ∀ i, i < g.next → i ≠ x := fun i hi => by have : g.next ≤ g1.next := A.next; omega
        refine ⟨A12.next, fun i hi => ?_, fun i hi => ?_, fun i hi => ?_, fun i hi => ?_, fun i hi hn => ?_, fun i hi hn => ?_⟩
        · rw [← A12.tag i hi]; simp only [Heap.tag, node_modify, if_neg (ne i hi)]
        · rw [← A12.value i hi]; simp only [node_modify, if_neg (ne i hi)]
        · rw [← A12.flags i hi]; simp only [Heap.flags, node_modify, if_neg (ne i hi)]
        · rw [← A12.par i hi]; simp only [Heap.par, node_modify, if_neg (ne i hi)]
        · rw [← A12.kids i hi hn]; simp only [Heap.kids, node_modify, if_neg (ne i hi)]
        · rw [← A12.link i hi hn]; simp only [node_modify, if_neg (ne i hi)]
      refine ⟨K.trans (K2.trans K3), A3.mono fun i _ d => ⟨trivial, d⟩, fun F => ⟨(F2 F).flags x fun f => f ||| Flags.linked, fun _ => ⟨_, rfl⟩⟩, fun y hy => ?_⟩
      simp only [Except.ok.injEq] at hy
      subst hy
      refine ⟨by simp only [node_modify]; split <;> exact B.par, ?_⟩
      obtain ⟨U, u1, u2, u3, u4⟩ := B.rep
      have nd := u2.ids_nodup K2.core.wf K2.core.forest
      obtain ⟨i, t, v, f, l, us⟩ := U
      simp only [Tree.id] at u1
      subst u1
      have hs : t = g1.tag c ∧ v = (g1.node c).value ∧ us.map Tree.shape = Ts.map Tree.copyShape := by
        rw [← f2, ← f3, ← eT]
        generalize g1.tree c = V at u3 ⊢
        obtain ⟨i', t', v', f', l', ks'⟩ := V
        simp only [Tree.shape, Tree.copyShape, Shape.node.injEq, shapeL_eq, copyShapeL_eq] at u3
        exact ⟨u3.1, u3.2.1, u3.2.2.2.2⟩
      rw [A.tag c hc, A.value c hc] at hs
      have len : us.length = Ts.length := by have := congrArg List.length hs.2.2; simpa using this
      refine ⟨.node i t v (f ||| Flags.linked) l us, rfl, ?_, ?_, ?_⟩
      · simp only [Rep, Heap.tag, Heap.flags, Heap.kids, node_modify, if_true] at u2 ⊢
        obtain ⟨r1, r2, r3, r4, r5, r6⟩ := u2
        refine ⟨r1, r2, by rw [r3], r4, r5, (repL_iff us).2 fun k hk => ((repL_iff us).1 r6 k hk).congr fun j hj => ?_⟩
        have ne : j ≠ i := fun e => by
          rw [Tree.ids_node, List.nodup_cons] at nd
          exact nd.1 (e ▸ Tree.mem_idsL.2 ⟨k, hk, hj⟩)
        simp only [Heap.tag, Heap.flags, Heap.kids, node_modify, if_neg ne, and_self]
      · intro j hj
        rw [Tree.ids_node] at hj
        have := u4 j (by rw [Tree.ids_node]; exact hj)
        exact ⟨Nat.le_trans A.next this.1, this.2⟩
      · refine .link hr hs.1 hs.2.1 (by simp only [Tree.flags]; generalize f = f'; revert f'; decide) Sc (len.trans k4) fun n d k hd hk => ?_
        simp only [Tree.kids] at hk
        have hi : n < Ts.length := by rw [← len]; exact (List.getElem?_eq_some_iff.1 hk).1
        have e2 := congrArg (fun l => l[n]?) hs.2.2
        simp only [List.getElem?_map, hk, List.getElem?_eq_getElem hi, Option.map_some, Option.some.injEq] at e2
        exact (k5 n d Ts[n] hd (List.getElem?_eq_getElem hi)).copy e2

/-- loading the children of the source one after the other -/
theorem nested_loop {load : Heap → Id → Res Bool} {force : Bool} {p s : Id} {Ds : Id → Id → Prop} {m : Nat} {fits : Prop} (HL : ∀ g c D, Core g → NoZombie g → Nested g force m c D → Loads g c D fits (load g c)) :
    ∀ (cs : List Id) (h : Heap) (ks : List LKey), Core h → NoZombie h → p < h.next → h.isLinkRoot p = true → s < h.next → h.isLinkRoot s = false → (∀ c ∈ cs, c ∈ h.kids s) → cs.Nodup → (∀ c ∈ cs, c < h.next) → (∀ c ∈ cs, (h.flags c).has Flags.linked = false) →
    (∀ c ∈ cs, h.isLinkRoot c = true → Nested h force m c (Ds c)) → (∀ c ∈ cs, h.isLinkRoot c = true → ¬ Ds c p) →
    (∀ c ∈ cs, ∀ c' ∈ cs, h.isLinkRoot c = true → h.isLinkRoot c' = true → c ≠ c' → ∀ i, Ds c i → ¬ Ds c' i) →
    LKeeps h (loadLoop load p s h cs [] ks).1 ∧ LoadsOnly (fun i => i = p ∨ ∃ c ∈ cs, h.isLinkRoot c = true ∧ Ds c i) h (loadLoop load p s h cs [] ks).1 ∧
      (AllFresh h → AllFresh (loadLoop load p s h cs [] ks).1 ∧ (fits → ∃ r, (loadLoop load p s h cs [] ks).2 = .ok r)) ∧
      ∀ r, (loadLoop load p s h cs [] ks).2 = .ok r → r.1 = [] ∧ ∃ Ts : List Tree, (loadLoop load p s h cs [] ks).1.kids p = h.kids p ++ Ts.map Tree.id ∧ (∀ T ∈ Ts, Rep (loadLoop load p s h cs [] ks).1 T) ∧
        (∀ T ∈ Ts, ∀ i ∈ T.ids, h.next ≤ i ∧ i < (loadLoop load p s h cs [] ks).1.next) ∧ Ts.length = cs.length ∧ ∀ (i : Nat) d k, cs[i]? = some d → Ts[i]? = some k → ShowsItem h d k := by
  intro cs
  induction cs with
  | nil =>
    intro h ks C _ _ _ _ _ _ _ _ _ _ _ _
    refine ⟨LKeeps.refl C, .refl _ _, fun F => ⟨F, fun _ => ⟨_, rfl⟩⟩, fun r hr => ?_⟩
    simp only [loadLoop, Except.ok.injEq] at hr
    exact ⟨by rw [← hr], [], by simp [loadLoop], by simp, by simp, rfl, by simp⟩
  | cons c cs ih =>
    intro h ks C Z hp hpr hs hsr hks nd hlt hl hN hnp hdj
    have hcn := (List.nodup_cons.1 nd)
    have hcl := hlt c (by simp)
    obtain ⟨K1, A1, F1, ok1⟩ := linkedItem_loads (load := load) (D := Ds c) C hcl (hl c (by simp)) fun hr => HL h c (Ds c) C Z (hN c (by simp) hr)
    have wide : ∀ {h'}, LoadsOnly (fun i => h.isLinkRoot c = true ∧ Ds c i) h h' → LoadsOnly (fun i => i = p ∨ ∃ d ∈ c :: cs, h.isLinkRoot d = true ∧ Ds d i) h h' :=
      fun A => A.mono fun i _ hi => .inr ⟨c, by simp, hi⟩
    simp only [loadLoop]
    generalize linkedItem load h c = n at K1 A1 F1 ok1 ⊢
    obtain ⟨h1, er | x⟩ := n
    · exact ⟨K1, wide A1, fun F => ⟨(F1 F).1, fun ft => by obtain ⟨_, e⟩ := (F1 F).2 ft; cases e⟩, fun r hr => by cases hr⟩
    obtain ⟨px, T, t1, t2, t3, t4⟩ := ok1 x rfl
    simp only at K1 A1 F1 px t2 t3 ⊢
    have same : AllFresh h → ∃ m : Nat, h1.tagIdx c = (h1, .ok (.pair (h1.tag c) m)) := fun F => by
      have hc1 : c ∈ h1.kids s := by
        rw [A1.kids s hs fun e => by have := ((hN c (by simp) e.1).dom s e.2).2; rw [hsr] at this; cases this]
        exact hks c (by simp)
      obtain ⟨q, m, -, -, e⟩ := tagIdx_of_fresh K1.core.wf ⟨s, hc1, (F1 F).1 s c hc1⟩
      exact ⟨m, e⟩
    have C2 := tagIdx_ceq h1 c
    have K2 := K1.trans (C2.lkeeps K1.core)
    generalize hg : h1.tagIdx c = g at *
    obtain ⟨h2, q⟩ := g
    simp only at C2 K2 ⊢
    have A2 : LoadsOnly (fun i => h.isLinkRoot c = true ∧ Ds c i) h h2 := (A1.trans (C2.loadsOnly (fun _ => False))).mono fun i _ hi => hi.resolve_right id
    rcases q with er | (_ | ⟨t, m'⟩ | m')
    rotate_left 2
    rotate_left 1
    · exact ⟨K2, wide A2, fun F => by obtain ⟨_, e⟩ := same F; simp at e, fun r hr => by cases hr⟩
    · exact ⟨K2, wide A2, fun F => by obtain ⟨_, e⟩ := same F; simp at e, fun r hr => by cases hr⟩
    · exact ⟨K2, wide A2, fun F => by obtain ⟨_, e⟩ := same F; simp at e, fun r hr => by cases hr⟩
    simp only [List.map_nil, List.not_mem_nil, if_false]
    have hx2 : (h2.node x).parent = none := (C2.parent_none x).2 px
    have hxl := t3 x (by rw [← t1]; cases T; simp [Tree.ids_node, Tree.id])
    have hb : ¬ Below h2 x p := by
      intro hb
      have hb1 : Below h1 T.id p := by rw [t1]; exact (Below.congr C2.kids).1 hb
      have := (t3 p ((below_iff_ids t2 p).1 hb1)).1
      omega
    have At := appendItem_attach K2.core.wf (p := p) hx2
    have K3 := K2.trans ⟨At.keeps K2.core (Nat.lt_of_lt_of_le hp K2.le) (by rw [C2.next]; exact hxl.2) (Nat.le_refl _) hx2 hb, fun s => (NI.appendItem s (p := p) (x := x) id id).sep⟩
    have ne : ∀ i, i < h.next → i ≠ x := fun i hi => by omega
    have npc : ¬ (h.isLinkRoot c = true ∧ Ds c p) := fun e => hnp c (by simp) e.1 e.2
    have F3 : AllFresh h → AllFresh (appendItem h2 p x) := fun F => by
      obtain ⟨_, e⟩ := same F
      cases e
      exact (F1 F).1.append1 K1.core.wf px
    have A3 : LoadsOnly (fun i => i = p ∨ (h.isLinkRoot c = true ∧ Ds c i)) h (appendItem h2 p x) := by
      refine ⟨by rw [At.next]; exact A2.next, fun i hi => by rw [At.tag, A2.tag i hi], fun i hi => by rw [At.value, A2.value i hi], fun i hi => by rw [At.flags, A2.flags i hi], fun i hi => ?_,
        fun i hi hn => ?_, fun i hi hn => by rw [At.link, A2.link i hi fun e => hn (.inr e)]⟩
      · rw [← A2.par i hi]; exact (At.par_o i (ne i hi)).par
      · rw [At.kids_o i fun e => hn (.inl e)]; exact A2.kids i hi fun e => hn (.inr e)
    have k3 : (appendItem h2 p x).kids p = h.kids p ++ [x] := by
      rw [At.kids_p, List.insertIdx_length_self, A2.kids p hp npc]
    have R3 : Rep (appendItem h2 p x) T := t2.congr fun i hi => by
      have := (t3 i hi).1
      exact ⟨(At.tag i).trans (C2.tag i), (At.value i).trans (by rw [C2.node i]), (At.flags i).trans (C2.flags i), (At.link i).trans (by rw [C2.node i]), (At.kids_o i (by omega)).trans (C2.kids i)⟩
    have n3 : ∀ i ∈ T.ids, h.next ≤ i ∧ i < (appendItem h2 p x).next := fun i hi => by rw [At.next, C2.next]; exact t3 i hi
    have hX : ∀ i, (i = p ∨ (h.isLinkRoot c = true ∧ Ds c i)) → h.isLinkRoot i = true := by
      rintro i (rfl | ⟨e1, e2⟩)
      · exact hpr
      · exact ((hN c (by simp) e1).dom i e2).2
    have hks3 : ∀ d ∈ cs, d ∈ (appendItem h2 p x).kids s := fun d hd => by
      rw [A3.kids s hs fun e => by have := hX s e; rw [hsr] at this; cases this]
      exact hks d (by simp [hd])
    generalize appendItem h2 p x = g at K3 A3 F3 k3 R3 n3 hks3 ⊢
    have Zg : NoZombie g := K3.nz Z
    have rr : ∀ d ∈ cs, g.isLinkRoot d = h.isLinkRoot d := fun d hd => A3.isRoot (hlt d (by simp [hd]))
    have dis : ∀ d ∈ cs, h.isLinkRoot d = true → ∀ i, Ds d i → ¬ (i = p ∨ (h.isLinkRoot c = true ∧ Ds c i)) := by
      rintro d hd hr i hi (rfl | ⟨e1, e2⟩)
      · exact hnp d (by simp [hd]) hr hi
      · exact hdj c (by simp) d (by simp [hd]) e1 hr (fun e => hcn.1 (e ▸ hd)) i e2 hi
    obtain ⟨i1, i2, iF, i3⟩ := ih g (ks ++ [(t, m'.toNat)]) K3.core Zg (Nat.lt_of_lt_of_le hp K3.le) (by rw [A3.isRoot hp]; exact hpr) (Nat.lt_of_lt_of_le hs K3.le) (by rw [A3.isRoot hs]; exact hsr)
      hks3 hcn.2 (fun d hd => Nat.lt_of_lt_of_le (hlt d (by simp [hd])) K3.le)
      (fun d hd => by rw [A3.flags d (hlt d (by simp [hd]))]; exact hl d (by simp [hd]))
      (fun d hd hr => by rw [rr d hd] at hr; exact (hN d (by simp [hd]) hr).later C Z A3 hX (dis d hd hr))
      (fun d hd hr => by rw [rr d hd] at hr; exact hnp d (by simp [hd]) hr)
      (fun d hd d' hd' hr hr' => by rw [rr d hd] at hr; rw [rr d' hd'] at hr'; exact hdj d (by simp [hd]) d' (by simp [hd']) hr hr')
    refine ⟨K3.trans i1, (A3.trans i2).mono ?_, fun F => iF (F3 F), fun r hr => ?_⟩
    · rintro i hi ((rfl | ⟨e1, e2⟩) | (rfl | ⟨d, hd, e1, e2⟩))
      · exact .inl rfl
      · exact .inr ⟨c, by simp, e1, e2⟩
      · exact .inl rfl
      · exact .inr ⟨d, by simp [hd], by rw [← rr d hd]; exact e1, e2⟩
    obtain ⟨j1, Ts, j2, j3, j4, j5, j6⟩ := i3 r hr
    refine ⟨j1, T :: Ts, by rw [j2, k3, List.map_cons, t1, List.append_assoc]; rfl, ?_, ?_, by simp [j5], ?_⟩
    · intro U hU
      rcases List.mem_cons.1 hU with rfl | hU
      · refine R3.congr fun i hi => ?_
        obtain ⟨a, b⟩ := n3 i hi
        have nX : ¬ (i = p ∨ ∃ d ∈ cs, g.isLinkRoot d = true ∧ Ds d i) := by
          rintro (rfl | ⟨d, hd, e1, e2⟩)
          · omega
          · have := ((hN d (by simp [hd]) (by rw [← rr d hd]; exact e1)).dom i e2).1
            omega
        exact ⟨i2.tag i b, i2.value i b, i2.flags i b, i2.link i b nX, i2.kids i b nX⟩
      · exact j3 U hU
    · intro U hU i hi
      rcases List.mem_cons.1 hU with rfl | hU
      · exact ⟨(n3 i hi).1, Nat.lt_of_lt_of_le (n3 i hi).2 i2.next⟩
      · exact ⟨Nat.le_trans A3.next (j4 U hU i hi).1, (j4 U hU i hi).2⟩
    · intro i d k hd hk
      cases i with
      | zero =>
        simp only [List.getElem?_cons_zero, Option.some.injEq] at hd hk
        subst hd; subst hk
        exact t4
      | succ i =>
        simp only [List.getElem?_cons_succ] at hd hk
        have hm := List.mem_of_getElem? hd
        exact (j6 i d k hd hk).back (force := force) C Z K3.core A3 hX (hlt d (by simp [hm])) fun hr => ⟨_, Ds d, hN d (by simp [hm]) hr, dis d hm hr⟩

theorem getTarget_ok (C : Core h) (fe : FileEnv) {p s : Id} {lk : LinkSt} (hl : (h.node p).link = some lk) (ho : lk.OwnTree) (L : LeadsTo h (h.root p) (dropRoot (h.tag (h.root p)) lk.path) s) : (getTarget fe h p).2 = .ok s := by
  obtain ⟨q, e, hq⟩ := targetIn_spec C.wf (lk := lk) (h.root p) hl rfl
  rw [theFile_none hl ho.the, e]
  rcases hq with ⟨s', rfl, L'⟩ | ⟨hn, -⟩
  · exact congrArg Except.ok (L'.unique L)
  · exact absurd L (hn s)

/-- loading a link root whose link leads to further link roots -/
theorem nested_loads (fe : FileEnv) (force : Bool) : ∀ (n m : Nat) (h : Heap) (p : Id) (D : Id → Prop), Core h → NoZombie h → Nested h force m p D → Loads h p D (m ≤ n) (loadLinks (linkEnv fe) force n h p) := by
  intro n
  induction n with
  | zero => intro m h p D C _ N; exact ⟨LKeeps.refl C, .refl _ _, fun F => ⟨F, fun hm => by cases N; omega⟩, fun b hb => by cases hb⟩
  | succ n ih =>
    intro m h p D C Z N
    have hself := N.self
    cases N with
    | @mk m _ s lk _ Ds a b c d e f v w l n1 n2 n3 hD =>
      have hact : loadActive (linkEnv fe) h p lk force = (h, .ok true) := by
        rw [loadActive, if_pos]
        rcases f with rfl | e
        · rfl
        · simp [e]
      have hfind : (linkEnv fe).find h p = getTarget fe h p := rfl
      obtain ⟨g1, g2⟩ := getTarget_keeps C fe d e
      simp only [loadLinks, d, hact, hfind]
      have K1 : LKeeps h (getTarget fe h p).1 := by rw [g1]; exact setLink_keeps C p _ fun l => rfl
      have S1 : StructEq h (getTarget fe h p).1 := by rw [g1]; exact setLink_structEq h p _
      have A1 : LoadsOnly (fun i => i = p) h (getTarget fe h p).1 := by
        rw [g1]
        have S := setLink_structEq h p fun l => { l with path := dropRoot (h.tag (h.root p)) lk.path }
        exact ⟨Nat.le_of_eq S.next.symm, fun i _ => S.tag i, fun i _ => by simp only [Heap.setLink, Heap.modify]; split <;> rfl, fun i _ => setLink_flags h p _ i, fun i _ => by simp only [Heap.par, S.parent], fun i _ _ => S.kids i,
          fun i _ hi => by rw [setLink_link, if_neg hi]⟩
      have okT := getTarget_ok C fe d e v.to
      generalize getTarget fe h p = r at K1 A1 g2 S1 okT ⊢
      obtain ⟨h1, er | s'⟩ := r
      · cases okT
      obtain rfl : s' = s := (g2 s' rfl).unique v.to
      simp only at K1 A1 S1 ⊢
      have hk1 : h1.kids p = [] := (S1.kids p).trans c
      have e2 : numberKids h1 p = (h1, .ok []) := by simp only [numberKids, hk1]; rfl
      have K3 := K1.trans (dropKids_keeps K1.core hk1)
      obtain ⟨f1, f2, f3, f4, f5, f6, f7, f8, f9⟩ := dropKids_facts h1 p
      have kk : ∀ i, (dropKids h1 p).kids i = h1.kids i := fun i => by
        rw [f2]; split
        · next e => rw [e, hk1]
        · rfl
      have F3 : AllFresh h → AllFresh (dropKids h1 p) := fun F => (F.structEq S1).struct f4 kk f8
      have A3 : LoadsOnly (fun i => i = p) h (dropKids h1 p) := by
        have A2 := A1
        refine ⟨by rw [f1]; exact A2.next, fun i hi => ?_, fun i hi => ?_, fun i hi => by rw [f6, A2.flags i hi], fun i hi => ?_, fun i hi hn => by rw [f2, if_neg hn]; exact A2.kids i hi hn, fun i hi hn => by rw [f7, A2.link i hi hn]⟩
        · rw [← A2.tag i hi]; simp only [dropKids, Heap.tag, Heap.modify]; split <;> rfl
        · rw [← A2.value i hi]; simp only [dropKids, Heap.modify]; split <;> rfl
        · rw [← A2.par i hi]; simp only [dropKids, Heap.par, Heap.modify]; split <;> rfl
      have nsp : s' ≠ p := fun e => by rw [e, b] at w; cases w
      have hsl : s' < h.next := v.lt C.wf ((A1.root C Z a).2)
      have kp : (dropKids h1 p).kids p = [] := by rw [f2, if_pos rfl]
      have ks : (dropKids h1 p).kids s' = h.kids s' := A3.kids s' hsl nsp
      have eE : localItems h1 [] = [] := rfl
      simp only [takeOver, e2, eE]
      generalize dropKids h1 p = g at K3 A3 F3 kp ks ⊢
      rw [ks]
      have kl : ∀ c ∈ h.kids s', c < h.next := fun c hc => C.wf.kids_lt s' c hc
      have rr : ∀ c ∈ h.kids s', g.isLinkRoot c = h.isLinkRoot c := fun c hc => A3.isRoot (kl c hc)
      have hX : ∀ i, i = p → h.isLinkRoot i = true := fun i e => e ▸ b
      have dis : ∀ c ∈ h.kids s', h.isLinkRoot c = true → ∀ i, Ds c i → ¬ i = p := fun c hc hr i hi e => n2 c hc hr (e ▸ hi)
      obtain ⟨i1, i2, iF, i3⟩ := nested_loop (load := loadLinks (linkEnv fe) force n) (force := force) (p := p) (s := s') (Ds := Ds) (m := m) (fits := m + 1 ≤ n + 1)
        (fun g c D C Z N => by have := ih m g c D C Z N; rwa [show (m ≤ n) = (m + 1 ≤ n + 1) by simp] at this) (h.kids s') g [] K3.core (K3.nz Z)
        (Nat.lt_of_lt_of_le a K3.le) (by rw [A3.isRoot a]; exact b) (Nat.lt_of_lt_of_le hsl K3.le) (by rw [A3.isRoot hsl]; exact w) (fun c hc => by rw [ks]; exact hc) (C.wf.kids_nodup s') (fun c hc => Nat.lt_of_lt_of_le (kl c hc) K3.le) (fun c hc => by rw [A3.flags c (kl c hc)]; exact l c hc)
        (fun c hc hr => by rw [rr c hc] at hr; exact (n1 c hc hr).later C Z A3 hX (dis c hc hr))
        (fun c hc hr => by rw [rr c hc] at hr; exact n2 c hc hr)
        (fun c hc c' hc' hr hr' => by rw [rr c hc] at hr; rw [rr c' hc'] at hr'; exact n3 c hc c' hc' hr hr')
      have A4 : LoadsOnly D h (loadLoop (loadLinks (linkEnv fe) force n) p s' g (h.kids s') [] []).1 := (A3.trans i2).mono (by
        rintro i hi (rfl | rfl | ⟨c, hc, e1, e2⟩)
        · exact hself
        · exact hself
        · exact (hD i).2 (.inr ⟨c, hc, by rw [← rr c hc]; exact e1, e2⟩))
      generalize loadLoop (loadLinks (linkEnv fe) force n) p s' g (h.kids s') [] [] = q at i1 i2 i3 iF A4 ⊢
      obtain ⟨h3, er | ⟨E', kk⟩⟩ := q
      · exact ⟨K3.trans i1, A4, fun F => ⟨(iF (F3 F)).1, fun ft => by obtain ⟨_, e⟩ := (iF (F3 F)).2 ft; cases e⟩, fun b hb => by cases hb⟩
      obtain ⟨j1, Ts, j2, j3, j4, j5, j6⟩ := i3 (E', kk) rfl
      simp only at j1 j2 j3 j4 A4 iF
      subst j1
      have KL := setLink_keeps i1.core p (fun l => { l with tags := (kk.map (·.1)).eraseDups, keys := kk, loaded := true }) fun l => rfl
      have SL := setLink_structEq h3 p fun l => { l with tags := (kk.map (·.1)).eraseDups, keys := kk, loaded := true }
      have vL : ∀ i, ((h3.setLink p fun l => { l with tags := (kk.map (·.1)).eraseDups, keys := kk, loaded := true }).node i).value = (h3.node i).value := fun i => by simp only [Heap.setLink, Heap.modify]; split <;> rfl
      have fL := setLink_flags h3 p fun l => { l with tags := (kk.map (·.1)).eraseDups, keys := kk, loaded := true }
      have lL : ∀ i, i ≠ p → ((h3.setLink p fun l => { l with tags := (kk.map (·.1)).eraseDups, keys := kk, loaded := true }).node i).link = (h3.node i).link := fun i hi => by rw [setLink_link, if_neg hi]
      refine ⟨(K3.trans i1).trans KL, ?_, fun F => ⟨(iF (F3 F)).1.structEq SL, fun _ => ⟨_, rfl⟩⟩, fun b hb => ?_⟩
      · refine ⟨by rw [← SL.next] at *; exact A4.next, fun i hi => (SL.tag i).trans (A4.tag i hi), fun i hi => (vL i).trans (A4.value i hi), fun i hi => (fL i).trans (A4.flags i hi), fun i hi => (Eq.trans ?_ (A4.par i hi)),
          fun i hi hn => (SL.kids i).trans (A4.kids i hi hn), fun i hi hn => (lL i fun e => hn (e ▸ hself)).trans (A4.link i hi hn)⟩
        exact congrArg (Option.map PRef.pid) (SL.parent i)
      · refine ⟨by simpa using hb.symm, s', Ts, ⟨lk, d, v.to⟩, ?_, fun T hT => ?_, fun T hT i hi => ?_, j5, fun i d k hd hk => ?_⟩
        · refine (SL.kids p).trans ?_
          rw [j2, kp, List.nil_append]
        · refine (j3 T hT).congr fun i hi => ?_
          have hip : i ≠ p := fun e => by have := (j4 T hT i hi).1; have := A3.next; omega
          exact ⟨SL.tag i, vL i, fL i, lL i hip, SL.kids i⟩
        · have := j4 T hT i hi
          exact ⟨Nat.le_trans A3.next this.1, Nat.lt_of_lt_of_le this.2 (Nat.le_of_eq SL.next.symm)⟩
        · have hm := List.mem_of_getElem? hd
          exact (j6 i d k hd hk).back (force := force) C Z K3.core A3 hX (kl d hm) fun hr => ⟨_, Ds d, n1 d hm hr, dis d hm hr⟩
end
end ITree
