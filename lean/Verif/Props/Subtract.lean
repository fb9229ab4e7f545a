import Verif.Proofs.Subtract2
import Verif.Proofs.Init
import Verif.Props.Copy
import Verif.Props.Equal
/-
C69: subtraction of items, `t - u`.
-/
namespace ITree

variable {ms : ModelSet} {h : Heap}

/-- C69: whatever `t - u` does or raises, all items that existed before keep tag, value, flags, link, children and parent. (partial: histories without `sort` and `clear`.) -/
theorem C69_operands_untouched_partial (H : Tidy ms h) (O : SubOps) (t u : Id) : Unchanged h (subItem O h t (h.tree u)).1 := by
  have W := H.inv.1.wf
  have S : Sep (fun i => i < h.next) True h := by
    refine ⟨fun i hi => hi, fun i hi => ?_⟩
    obtain ⟨a, b⟩ := W.fresh i (by omega)
    refine ⟨?_, ?_, fun F hF => ?_, fun F hF => ?_, fun l y e1 e2 => ?_⟩
    · have a : (h.node i).items = [] := a
      rw [a]; simp
    · rw [b]; simp
    · rw [W.fams_nil i F a hF]; exact .nil
    · obtain rfl := H.staleNil hF; exact ⟨.inl trivial, .nil⟩
    · have := H.inv.1.nocov i
      simp [coverOf, e1, e2] at this
  have A0 : Old (fun i => i < h.next) h h := ⟨S, Nat.le_refl _, fun _ _ => rfl, fun _ _ => PEq.refl _⟩
  have A := (Old.subItem O (h.tree u) t A0).1
  refine ⟨A.next, fun i hi => ?_, fun i hi => ?_, fun i hi => ?_, fun i hi => ?_, fun i hi _ => ?_, fun i hi _ => ?_⟩
  · simp only [Heap.tag]; rw [A.node i hi]
  · rw [A.node i hi]
  · simp only [Heap.flags]; rw [A.node i hi]
  · rw [A.node i hi]
  · simp only [Heap.kids]; rw [A.node i hi]
  · have := A.par i hi
    simp only [Heap.par]
    revert this
    cases (h.node i).parent <;> cases ((subItem O h t (h.tree u)).1.node i).parent <;> simp [PEq]
    intro a _ _ _; exact a

/-- own data of an item -/
def Tree.data (T : Tree) : Tag × Val × Flags × Option LinkSt := (T.tag, T.value, T.flags, T.link)

theorem shape_deep {A B : Tree} (h : A.shape = B.shape) : A.data = B.data ∧ A.kids.length = B.kids.length ∧ A.pre.map Tree.data = B.pre.map Tree.data ∧ A.deep.map Tree.data = B.deep.map Tree.data := by
  induction A using Tree.ind generalizing B with
  | H i t v f l ks ih =>
    obtain ⟨i', t', v', f', l', ks'⟩ := B
    simp only [Tree.shape, Shape.node.injEq, shapeL_eq] at h
    obtain ⟨rfl, rfl, rfl, rfl, h5⟩ := h
    have hlen : ks.length = ks'.length := by simpa using congrArg List.length h5
    have hd : (Tree.preL ks).map Tree.data = (Tree.preL ks').map Tree.data := by
      simp only [preL_eq, List.map_flatMap]
      clear hlen
      induction ks generalizing ks' with
      | nil => cases ks' <;> simp_all
      | cons a ks ihk =>
        cases ks' with
        | nil => simp at h5
        | cons b ks' =>
          simp only [List.map_cons, List.cons.injEq] at h5
          simp only [List.flatMap_cons, (ih a (by simp) h5.1).2.2.1]
          rw [ihk (fun k hk => ih k (by simp [hk])) _ h5.2]
    exact ⟨rfl, hlen, by simp [Tree.pre, Tree.data, Tree.tag, Tree.value, Tree.flags, Tree.link] at hd ⊢; exact hd, hd⟩

theorem pairEq_data {A A' B : Tree} (h : A.data = A'.data) : pairEq A B = pairEq A' B := by
  simp only [Tree.data, Prod.mk.injEq] at h
  obtain ⟨a, b, c, d⟩ := h
  simp only [pairEq, argsEq, linkArgs, a, b, c, d]

theorem zip_all_congr {f : Tree → Tree → Bool} (hf : ∀ A A' B, A.data = A'.data → f A B = f A' B) : ∀ (l l' m : List Tree), l.map Tree.data = l'.map Tree.data →
    (l.zip m).all (fun p => f p.1 p.2) = (l'.zip m).all fun p => f p.1 p.2
  | [], [], _, _ => rfl
  | [], _ :: _, _, h => by simp at h
  | _ :: _, [], _, h => by simp at h
  | a :: l, a' :: l', [], _ => rfl
  | a :: l, a' :: l', b :: m, h => by
    simp only [List.map_cons, List.cons.injEq] at h
    simp only [List.zip_cons_cons, List.all_cons, hf a a' b h.1, zip_all_congr hf l l' m h.2]

theorem pyEq_shape {A A' B : Tree} (h : A.shape = A'.shape) : A.pyEq B = A'.pyEq B := by
  obtain ⟨h1, h2, _, h3⟩ := shape_deep h
  have := zip_all_congr (fun A A' B => pairEq_data (A := A) (A' := A') (B := B)) A.deep A'.deep B.deep h3
  simp only [Tree.data, Prod.mk.injEq] at h1
  simp only [Tree.pyEq, h1.1, h1.2.1, h2, this]

theorem zip_fam {g : Tag} : ∀ {l0 l1 : List Tree} {n m : Nat} {x : Id}, l0.map Tree.shape = l1.map Tree.shape → (l0.map Tree.id).Nodup → (l0.map Tree.id)[n]? = some x →
    ((l0.filter fun k => k.tag = g).map Tree.id)[m]? = some x →
    ∃ a b, l0[n]? = some a ∧ l1[n]? = some b ∧ a.id = x ∧ a.shape = b.shape ∧ ((l1.filter fun k => k.tag = g).map Tree.id)[m]? = some b.id
  | [], _, n, _, _, _, _, hn, _ => by simp at hn
  | _ :: _, [], _, _, _, hs, _, _, _ => by simp at hs
  | a :: l0, b :: l1, n, m, x, hs, nd, hn, hm => by
    simp only [List.map_cons, List.cons.injEq, List.nodup_cons] at hs nd
    have ht : a.tag = b.tag := by
      have := (shape_deep hs.1).1
      simp only [Tree.data, Prod.mk.injEq] at this
      exact this.1
    have sub : ∀ k : Nat, ((l0.filter fun k => k.tag = g).map Tree.id)[k]? = some x → x ∈ l0.map Tree.id := fun k hk => by
      have := List.mem_of_getElem? hk
      simp only [List.mem_map, List.mem_filter] at this ⊢
      obtain ⟨y, hy, e⟩ := this
      exact ⟨y, hy.1, e⟩
    cases n with
    | zero =>
      simp only [List.map_cons, List.getElem?_cons_zero, Option.some.injEq] at hn
      subst hn
      by_cases hg : a.tag = g
      · have hg' : b.tag = g := ht ▸ hg
        simp only [List.filter_cons, hg, decide_true, if_true, List.map_cons] at hm
        cases m with
        | zero => exact ⟨a, b, rfl, rfl, rfl, hs.1, by simp [List.filter_cons, hg']⟩
        | succ m => rw [List.getElem?_cons_succ] at hm; exact absurd (sub _ hm) nd.1
      · simp only [List.filter_cons, hg, decide_false, Bool.false_eq_true, if_false] at hm
        exact absurd (sub _ hm) nd.1
    | succ n =>
      simp only [List.map_cons, List.getElem?_cons_succ] at hn
      have hne : x ≠ a.id := fun e => nd.1 (e ▸ List.mem_of_getElem? hn)
      by_cases hg : a.tag = g
      · have hg' : b.tag = g := ht ▸ hg
        simp only [List.filter_cons, hg, decide_true, if_true, List.map_cons] at hm
        cases m with
        | zero => simp only [List.getElem?_cons_zero, Option.some.injEq] at hm; exact absurd hm.symm hne
        | succ m =>
          rw [List.getElem?_cons_succ] at hm
          obtain ⟨a', b', r⟩ := zip_fam hs.2 nd.2 hn hm
          exact ⟨a', b', by simpa [List.filter_cons, hg'] using r⟩
      · have hg' : ¬ b.tag = g := ht ▸ hg
        simp only [List.filter_cons, hg, decide_false, Bool.false_eq_true, if_false] at hm
        obtain ⟨a', b', r⟩ := zip_fam hs.2 nd.2 hn hm
        exact ⟨a', b', by simpa [List.filter_cons, hg'] using r⟩

/-- child `y` of `u` has a partner at position `n` of `t`: the key (tag, number among the items with this tag) of both is the same, and they are equal.  The number is known, i.e. stored in `y`
(see `C69_after_reading`). -/
structure Partner (h : Heap) (t u y : Id) (n : Nat) : Prop where
  known : FreshFam h y
  at_n : ∃ (x : Id) (m : Nat), (h.kids t)[n]? = some x ∧ ((h.kids t).filter fun c => h.tag c = h.tag y)[m]? = some x ∧
    ((h.kids u).filter fun c => h.tag c = h.tag y)[m]? = some y ∧ (h.tree x).pyEq (h.tree y) = true

/-- C69 (partial: every child of `u` has an equal partner with the same key in `t`, and the partners are in the order of the children of `u`; `t` is not protected and has no links).
`t - u` is a new parentless item: a copy of `t` without the partners of the children of `u`.  Its tag is NoTag if the tags are equal and otherwise what Python's `-` (or `replace`) makes of the
tags; the same for the value. -/
theorem C69_sub_partial (H : Reach ms h) (tagSub : Tag → Tag → Tag) (valSub : Val → Val → Val) {t u : Id} (ht : t < h.next) (hu : u < h.next) (hpr : h.isProtected t = false)
    (hl : NoLinks (h.tree t)) (ps : List Nat) (hinc : ps.Pairwise (· < ·)) (hm : List.Forall₂ (Partner h t u) (h.kids u) ps) :
    ∃ (h' : Heap) (T' : Tree), subItem (.lib tagSub valSub) h t (h.tree u) = (h', .ok T'.id) ∧ Rep h' T' ∧ h'.par T'.id = none ∧ (∀ i ∈ T'.ids, h.next ≤ i) ∧
      T'.shape = .node (if h.tag t = h.tag u then .noTag else tagSub (h.tag t) (h.tag u))
        (if valueEqual (h.node t).value (h.node u).value then .noValue else valSub (h.node t).value (h.node u).value) (h.flags t) none
        ((without ps (h.tree t).kids).map Tree.shape) := by
  have C := H.core
  obtain ⟨T, hTid, RT⟩ := C.forest.exists_rep t
  obtain ⟨U, hUid, RU⟩ := C.forest.exists_rep u
  have eT : h.tree t = T := by rw [← hTid]; exact RT.tree C.wf
  have eU : h.tree u = U := by rw [← hUid]; exact RU.tree C.wf
  have S := copyItem_spec C.wf t
  rw [eT] at S
  obtain ⟨T1, e1, R1, s1, f1⟩ := S.rep
  rw [C31_same_shape (eT ▸ hl)] at s1
  have Cc := (S.keeps C).core
  have nd1 := R1.ids_nodup S.wf Cc.forest
  rw [eU, eT]
  obtain ⟨i0, t0, v0, f0, l0, ks0⟩ := T
  obtain ⟨j0, t2, v2, f2, l2, us⟩ := U
  obtain ⟨n1, t1, v1, g1, l1, ks1⟩ := T1
  simp only [Tree.id] at hTid hUid e1
  subst hTid hUid e1
  have RT' := RT
  simp only [Rep, repL_iff] at RT R1 RU
  obtain ⟨rt1, rt2, rt3, rt4, rt5, rt6⟩ := RT
  obtain ⟨ru1, ru2, ru3, ru4, ru5, ru6⟩ := RU
  obtain ⟨rn1, rn2, rn3, rn4, rn5, rn6⟩ := R1
  simp only [Tree.shape, Shape.node.injEq, shapeL_eq] at s1
  obtain ⟨rfl, rfl, rfl, rfl, s5⟩ := s1
  have hl0 : l1 = none := by rw [eT] at hl; have := hl _ (Tree.self_mem_pre _); simpa [Tree.link] using this
  subst hl0
  obtain ⟨hc, nw, ec⟩ : ∃ hc nw, copyItem h i0 = (hc, nw) := ⟨_, _, rfl⟩
  have hold : ∀ i, i < h.next → hc.node i = h.node i := fun i hi => by have := copyItem_node (x := i0) hi; rwa [ec] at this
  simp only [ec] at S Cc nd1 f1 rn1 rn2 rn3 rn4 rn5 rn6
  have hnw : h.next ≤ nw := (f1 nw (by simp [Tree.ids_node])).1
  let tg : Tag := if t1 = t2 then .noTag else tagSub t1 t2
  let vl : Val := if valueEqual v1 v2 then .noValue else valSub v1 v2
  let h1 : Heap := hc.modify nw fun n => { n with tag := tg, value := vl }
  have C1 : Core h1 := head_core Cc S.par tg vl
  have k1 : ∀ i, h1.kids i = hc.kids i := by intro i; simp only [h1, Heap.kids, node_modify]; split <;> rfl
  have g1' : ∀ i, h1.flags i = hc.flags i := by intro i; simp only [h1, Heap.flags, node_modify]; split <;> rfl
  have lk1 : ∀ i, (h1.node i).link = (hc.node i).link := by intro i; simp only [h1, node_modify]; split <;> rfl
  have nd1' : ∀ i, i ≠ nw → h1.node i = hc.node i := by intro i hi; simp only [h1, node_modify, hi, if_false]
  have hold1 : ∀ i, i < h.next → h1.node i = h.node i := fun i hi => by rw [nd1' i (by omega), hold i hi]
  have klt : ∀ p c, c ∈ h.kids p → c < h.next ∧ p < h.next := by
    intro p c hpc
    have a : p < h.next := by
      by_contra hp
      have := (C.wf.fresh p (by omega)).1
      simp only [Heap.kids] at hpc this
      rw [this] at hpc; simp at hpc
    obtain ⟨r, hr, _⟩ := C.wf.kid_parent p c hpc
    exact ⟨C.wf.lt_of_parent hr, a⟩
  have fam1 : ∀ p g, p < h.next → famView h1 p g = famView h p g := by
    intro p g hp
    have e : h1.kids p = h.kids p := by simp only [Heap.kids, hold1 p hp]
    simp only [famView, e]
    refine List.filter_congr fun c hcp => ?_
    rw [Heap.tag, Heap.tag, hold1 c (klt p c hcp).1]
  have idsK : ∀ k ∈ ks1, nw ∉ k.ids := by
    intro k hk hn
    rw [Tree.ids_node, List.nodup_cons] at nd1
    exact nd1.1 (by rw [idsL_eq]; exact List.mem_flatMap.2 ⟨k, hk, hn⟩)
  have repK : ∀ k ∈ ks1, Rep h1 k := fun k hk => (rn6 k hk).congr fun i hi => by
    have : i ≠ nw := fun e => idsK k hk (e ▸ hi)
    have := nd1' i this
    simp only [Heap.tag, Heap.flags, Heap.kids, this, and_self]
  have famF : ∀ (g : Heap) (p : Id) (l : List Tree) (G : Tag), g.kids p = l.map Tree.id → (∀ k ∈ l, Rep g k) →
      famView g p G = (l.filter fun k => k.tag = G).map Tree.id := by
    intro g p l G e R
    simp only [famView, e, List.filter_map]
    congr 1
    refine List.filter_congr fun k hk => ?_
    have : g.tag k.id = k.tag := by
      obtain ⟨a, b, c, d, e, f⟩ := k
      have := R _ hk
      simp only [Rep] at this
      exact this.1
    simp only [Function.comp, this]
  have kn1 : h1.kids nw = ks1.map Tree.id := by rw [k1, rn5]
  have nd0 : (ks0.map Tree.id).Nodup := rt5 ▸ C.wf.kids_nodup i0
  have hMatch : List.Forall₂ (fun (k : Tree) n => Match (.lib tagSub valSub) h1 nw j0 k.id n) us ps := by
    rw [ru5, List.forall₂_map_left_iff] at hm
    refine (List.forall₂_and_left (p := fun k => k ∈ us) _ _).2 ⟨fun _ h => h, hm⟩ |>.imp fun k n hkn => ?_
    obtain ⟨hk, F, x, m, hx, hfx, hfy, heq⟩ := hkn
    have hky : k.id ∈ h.kids j0 := by rw [ru5]; exact List.mem_map_of_mem hk
    have hlt := (klt _ _ hky)
    have etag : h1.tag k.id = h.tag k.id := by simp only [Heap.tag, hold1 _ hlt.1]
    obtain ⟨a, b, ha, hb, eax, esh, hbm⟩ := zip_fam s5.symm nd0 (by rw [← rt5]; exact hx) (by rw [← famF h i0 ks0 _ rt5 rt6]; exact hfx)
    have hbm1 := List.mem_of_getElem? hb
    have ham := List.mem_of_getElem? ha
    refine ⟨?_, ?_, b.id, m, ?_, ?_, ?_, ?_⟩
    · obtain ⟨q, hq, r, hr1, hr2, hr3⟩ := F
      have hq' := klt _ _ hq
      refine ⟨q, by simp only [Heap.kids] at hq ⊢; rw [hold1 _ hq'.2]; exact hq, r, by rw [hold1 _ hlt.1]; exact hr1, hr2, ?_⟩
      rw [etag, fam1 _ _ hq'.2]; exact hr3
    · simp only [Heap.kids] at hky ⊢; rw [hold1 _ hlt.2]; exact hky
    · rw [kn1, List.getElem?_map, hb]; rfl
    · rw [etag, famF h1 nw ks1 _ kn1 repK]; exact hbm
    · rw [etag, fam1 _ _ hlt.2]; exact hfy
    · intro g Hg
      have Cg := C1.ceq Hg
      have cg : ∀ (K : Tree), Rep h1 K → Rep g K := fun K R => R.congr fun i _ => ⟨Hg.tag i, Hg.value i, Hg.flags i, Hg.link i, Hg.kids i⟩
      have Rb := cg b (repK b hbm1)
      have Rk : Rep g k := cg k ((ru6 k hk).congr fun i hi => by
        have := hold1 i ((ru6 k hk).ids_lt C.wf hlt.1 i hi)
        simp only [Heap.tag, Heap.flags, Heap.kids, this, and_self])
      have e1 := Rb.tree Cg.wf
      have e2 := Rk.tree Cg.wf
      have e3 := (rt6 a ham).tree C.wf
      have e4 := (ru6 k hk).tree C.wf
      rw [eax] at e3
      rw [e3, e4, pyEq_shape esh] at heq
      simp only [SubOps.lib, Heap.eqItem, e1, e2, heq, Bool.or_true]
  obtain ⟨h2, E2, H2⟩ := subLoop_ok (.lib tagSub valSub) us ps [] C1 hMatch
  have C2 := C1.ceq H2
  have hpr2 : h2.isProtected nw = false := by
    simp only [Heap.isProtected] at hpr ⊢
    rw [H2.flags, g1', rn3, ← rt3]; exact hpr
  have hlt2 : ∀ q ∈ ps, q < (h2.kids nw).length := by
    intro q hq
    rw [H2.kids]
    have : ∀ {l : List Tree} {r : List Nat}, List.Forall₂ (fun (k : Tree) n => Match (.lib tagSub valSub) h1 nw j0 k.id n) l r → ∀ q ∈ r, q < (h1.kids nw).length := by
      intro l r F
      induction F with
      | nil => simp
      | cons M _ ih =>
        intro q hq
        rcases List.mem_cons.1 hq with rfl | hq
        · obtain ⟨_, _, o, _, e, _⟩ := M
          exact (List.getElem?_eq_some_iff.1 e).1
        · exact ih q hq
    exact this hMatch q hq
  obtain ⟨h3, E3, C3, S3, k3, p3⟩ := subDelete_ok ps C2 hpr2 hinc hlt2
  refine ⟨h3, .node nw tg vl g1 none (without ps ks1), ?_, ?_, ?_, ?_, ?_⟩
  · have e0 : h.tag i0 = t1 := rt1
    have e1 : (h.node i0).value = v1 := rt2
    simp only [subItem, ec, e0, e1]
    have : (hc.modify nw (subHead (.lib tagSub valSub) t1 t2 v1 v2)) = h1 := rfl
    rw [this, E2]
    simp only [List.nil_append, E3, Tree.id]
  · simp only [Rep, repL_iff]
    have d : ∀ i, h3.tag i = h1.tag i ∧ (h3.node i).value = (h1.node i).value ∧ h3.flags i = h1.flags i ∧ (h3.node i).link = (h1.node i).link :=
      fun i => ⟨(S3.tag i).trans (H2.tag i), (S3.value i).trans (H2.value i), (S3.flags i).trans (H2.flags i), (S3.link i).trans (H2.link i)⟩
    refine ⟨?_, ?_, ?_, ?_, ?_, ?_⟩
    · rw [(d nw).1]; simp [h1, Heap.tag, node_modify]
    · rw [(d nw).2.1]; simp [h1, node_modify]
    · rw [(d nw).2.2.1, g1', rn3]
    · rw [(d nw).2.2.2, lk1, rn4]
    · rw [k3, H2.kids, kn1, without, withoutFrom_map]; rfl
    · intro k hk
      have hk' := withoutFrom_sub _ _ _ k hk
      refine (repK k hk').congr fun i hi => ⟨(d i).1, (d i).2.1, (d i).2.2.1, (d i).2.2.2, ?_⟩
      rw [S3.kids i (fun e => idsK k hk' (e ▸ hi)), H2.kids]
  · have a : h1.par nw = none := by simp only [h1, Heap.par, node_modify, if_true]; rw [S.par]; rfl
    show h3.par nw = none
    rw [p3, H2.par', a]
  · intro i hi
    refine (f1 i ?_).1
    simp only [Tree.ids_node, List.mem_cons, idsL_eq, List.mem_flatMap] at hi ⊢
    rcases hi with e | ⟨k, hk, hi⟩
    · exact .inl e
    · exact .inr ⟨k, withoutFrom_sub _ _ _ k hk, hi⟩
  · have e0 : h.tag i0 = t1 := rt1
    have e1 : (h.node i0).value = v1 := rt2
    have e2 : h.tag j0 = t2 := ru1
    have e3 : (h.node j0).value = v2 := ru2
    have e4 : h.flags i0 = g1 := rt3
    simp only [Tree.shape, e0, e1, e2, e3, e4, shapeL_eq, Tree.kids, without, ← withoutFrom_map, s5]
    rfl

/-- reading `tag_idx` of all children of `u` once makes all their keys known and changes nothing else: the precondition `known` of `C69_sub_partial` -/
theorem C69_after_reading (H : Reach ms h) (u : Id) :
    (∀ y ∈ h.kids u, FreshFam (run ms h ((h.kids u).map Call.readTagIdx)) y) ∧ CEq h (run ms h ((h.kids u).map Call.readTagIdx)) := by
  suffices A : ∀ (l : List Id) (g : Heap), Core g → (∀ y ∈ l, y ∈ g.kids u) →
      (∀ y ∈ l, FreshFam (run ms g (l.map Call.readTagIdx)) y) ∧ (∀ z, FreshFam g z → FreshFam (run ms g (l.map Call.readTagIdx)) z) ∧
        CEq g (run ms g (l.map Call.readTagIdx)) by
    obtain ⟨a, _, c⟩ := A (h.kids u) h H.core fun _ hy => hy
    exact ⟨a, c⟩
  intro l
  induction l with
  | nil => intro g _ _; exact ⟨by simp, fun _ hz => hz, .refl _⟩
  | cons x l ih =>
    intro g C hl
    have e : (step ms g (.readTagIdx x)).1 = (g.tagIdx x).1 := by simp only [step, Res.void]
    have H1 := tagIdx_ceq g x
    obtain ⟨f1, f2⟩ := tagIdx_makes_fresh C.wf (hl x (by simp))
    obtain ⟨a, b, c⟩ := ih (g.tagIdx x).1 (C.ceq H1) (fun y hy => by rw [H1.kids]; exact hl y (by simp [hy]))
    simp only [List.map_cons, run, e]
    refine ⟨fun y hy => ?_, fun z hz => b z (f2 z hz), H1.trans c⟩
    rcases List.mem_cons.1 hy with rfl | hy
    · exact b _ f1
    · exact a y hy

/-! ### concrete cases -/

/-- `==` of values, written so that it computes on numbers and strings -/
def valEqS : Val → Val → Bool
  | .int a, .int b => a == b
  | .noValue, .noValue => true
  | a, b => Val.pyEq a b

theorem valEqS_eq : valEqS = Val.pyEq := by
  funext a b
  unfold valEqS
  split <;> simp [Val.pyEq]

def valueEqS (a b : Val) : Bool := a.ty == b.ty && valEqS a b
def pairEqS (a b : Tree) : Bool := (a.tag == b.tag && valEqS a.value b.value && linkArgs a == linkArgs b && a.flags == b.flags) || valueEqS a.value b.value
def eqItemS (h : Heap) (x y : Id) : Bool :=
  x == y || ((h.tree x).tag == (h.tree y).tag && (h.tree x).kids.length == (h.tree y).kids.length && valueEqS (h.tree x).value (h.tree y).value &&
    ((h.tree x).deep.zip (h.tree y).deep).all fun p => pairEqS p.1 p.2)
/-- the operations of the library, computing -/
def SubOps.libS (tagSub : Tag → Tag → Tag) (valSub : Val → Val → Val) : SubOps := ⟨tagSub, valSub, valueEqS, eqItemS⟩

theorem libS_eq (f g) : SubOps.libS f g = SubOps.lib f g := by
  have e1 : valueEqS = valueEqual := by funext a b; simp only [valueEqS, valueEqual, valEqS_eq]
  have e2 : eqItemS = Heap.eqItem := by
    funext h x y
    have e3 : pairEqS = pairEq := by funext a b; simp only [pairEqS, pairEq, argsEq, e1, valEqS_eq]
    simp only [eqItemS, Heap.eqItem, Tree.pyEq, e1, e3]
  simp only [SubOps.libS, SubOps.lib, e1, e2]

/-- items 0 and 1 with children (tag, number) `l1` and `l2`; the key of all children of item 1 has been read -/
def subCalls (l1 l2 : List (Nat × Int)) : List Call :=
  [.new (.other 9) .noValue [] 0#6, .new (.other 9) .noValue [] 0#6] ++ (l1.zipIdx.flatMap fun p => [Call.new (.other p.1.1) (.int p.1.2) [] 0#6, .append 0 (.item (2 + p.2))]) ++
    (l2.zipIdx.flatMap fun p => [Call.new (.other p.1.1) (.int p.1.2) [] 0#6, .append 1 (.item (2 + l1.length + p.2))]) ++
    (l2.zipIdx.map fun p => .readTagIdx (2 + l1.length + p.2))
def subHeap (l1 l2 : List (Nat × Int)) : Heap := run ms0 Heap.empty (subCalls l1 l2)

def isOk {α} : Except Err α → Bool
  | .ok _ => true
  | .error _ => false
def isErr {α} (e : Err) : Except Err α → Bool
  | .ok _ => false
  | .error e' => e == e'

/-- numbers: subtraction; tags: unchanged -/
def dTag : Tag → Tag → Tag := fun t _ => t
def dVal : Val → Val → Val
  | .int a, .int b => .int (a - b)
  | v, _ => v

def Val.num : Val → Option Int
  | .int a => some a
  | _ => Option.none
/-- (tag, number) of the children of the result -/
def subShow (r : Res Id) : List (Tag × Option Int) :=
  match r.2 with
  | .ok x => (r.1.kids x).map fun y => (r.1.tag y, (r.1.node y).value.num)
  | .error _ => []
/-- `t - u` for the two items of `subHeap` -/
def sub01 (l1 l2 : List (Nat × Int)) : Res Id := subItem (.lib dTag dVal) (subHeap l1 l2) 0 ((subHeap l1 l2).tree 1)
def sub01S (l1 l2 : List (Nat × Int)) : Res Id := subItem (.libS dTag dVal) (subHeap l1 l2) 0 ((subHeap l1 l2).tree 1)
theorem sub01_eq : sub01 = sub01S := by funext a b; simp only [sub01, sub01S, libS_eq]

/-- [a=1, b=2, c=3] - [a=1, c=3] = [b=2] -/
example : isOk (sub01 [(1, 1), (2, 2), (3, 3)] [(1, 1), (3, 3)]).2 = true ∧ subShow (sub01 [(1, 1), (2, 2), (3, 3)] [(1, 1), (3, 3)]) = [(.other 2, some 2)] := by
  rw [sub01_eq]; decide +kernel

/-- the hypotheses of `C69_sub_partial` hold in that case -/
example : ∃ h : Heap, Reach ms0 h ∧ h.isProtected 0 = false ∧ NoLinks (h.tree 0) ∧ h.kids 1 = [5, 6] ∧ List.Forall₂ (Partner h 0 1) (h.kids 1) [0, 2] := by
  have R : Reach ms0 (subHeap [(1, 1), (2, 2), (3, 3)] [(1, 1), (3, 3)]) := (tidy_run _ .empty (by decide +kernel)).reach
  refine ⟨_, R, by decide +kernel, by unfold NoLinks; decide +kernel, by decide +kernel, ?_⟩
  have k1 : (subHeap [(1, 1), (2, 2), (3, 3)] [(1, 1), (3, 3)]).kids 1 = [5, 6] := by decide +kernel
  rw [k1]
  have eq : ∀ x y, eqItemS (subHeap [(1, 1), (2, 2), (3, 3)] [(1, 1), (3, 3)]) x y = true → x ≠ y →
      ((subHeap [(1, 1), (2, 2), (3, 3)] [(1, 1), (3, 3)]).tree x).pyEq ((subHeap [(1, 1), (2, 2), (3, 3)] [(1, 1), (3, 3)]).tree y) = true := by
    intro x y e hne
    have e2 : eqItemS = Heap.eqItem := congrArg SubOps.itemEq (libS_eq dTag dVal)
    rw [e2] at e
    simpa [Heap.eqItem, hne] using e
  refine .cons ⟨⟨1, by decide +kernel, _, rfl, by decide +kernel, by decide +kernel⟩, 2, 0, by decide +kernel, by decide +kernel, by decide +kernel, eq _ _ (by decide +kernel) (by decide)⟩
    (.cons ⟨⟨1, by decide +kernel, _, rfl, by decide +kernel, by decide +kernel⟩, 4, 0, by decide +kernel, by decide +kernel, by decide +kernel, eq _ _ (by decide +kernel) (by decide)⟩ .nil)

/-- wrong (order): the positions are deleted in the reversed order of the children of `u`, not from the last to the first.
[a=1, b=2, c=3] - [b=2, a=1] removes `a` and `c` and keeps `b`. -/
theorem C69_order_wrong : isOk (sub01 [(1, 1), (2, 2), (3, 3)] [(2, 2), (1, 1)]).2 = true ∧
    subShow (sub01 [(1, 1), (2, 2), (3, 3)] [(2, 2), (1, 1)]) = [(.other 2, some 2)] := by
  rw [sub01_eq]; decide +kernel

/-- wrong (order): … and [a=1, b=2, c=3] - [c=3, a=1] raises IndexError -/
theorem C69_order_raises_wrong : isErr .index (sub01 [(1, 1), (2, 2), (3, 3)] [(3, 3), (1, 1)]).2 = true := by
  rw [sub01_eq]; decide +kernel

/-- wrong: a child of `u` without a partner raises KeyError: [a=1] - [b=5] -/
theorem C69_missing_wrong : isErr .key (sub01 [(1, 1)] [(2, 5)]).2 = true := by
  rw [sub01_eq]; decide +kernel

/-- wrong: … or IndexError: [a=1, a=2] - [a=1, a=2, a=3] -/
theorem C69_longer_wrong : isErr .index (sub01 [(1, 1), (1, 2)] [(1, 1), (1, 2), (1, 3)]).2 = true := by
  rw [sub01_eq]; decide +kernel

/-- wrong: the difference of two different items with the same key gets the tag NoTag, so the following members of the family are searched one place too far:
[a=1, a=2] - [a=9, a=2] raises IndexError, and [a=1, a=2, a=3] - [a=9, a=2] subtracts 2 from 3 instead of removing a=2 -/
theorem C69_shift_wrong : isErr .index (sub01 [(1, 1), (1, 2)] [(1, 9), (1, 2)]).2 = true ∧
    subShow (sub01 [(1, 1), (1, 2), (1, 3)] [(1, 9), (1, 2)]) = [(.noTag, some (-8)), (.other 1, some 2), (.noTag, some 1)] := by
  rw [sub01_eq]; decide +kernel

/-- wrong: a replaced only child leaves an empty family behind: [a=1, b=2] - [a=5] lists the tag `a` although no child has it -/
theorem C69_empty_family_wrong : subShow (sub01 [(1, 1), (2, 2)] [(1, 5)]) = [(.noTag, some (-4)), (.other 2, some 2)] ∧
    ((sub01 [(1, 1), (2, 2)] [(1, 5)]).1.node 5).fams.map (fun F => F.map Prod.fst) = some [.other 1, .other 2, .noTag] := by
  rw [sub01_eq]; decide +kernel

/-- wrong: a write-protected `t` cannot be used on the left although it is not changed -/
theorem C69_protected_wrong : isErr .permission (subItem (.lib dTag dVal) (run ms0 (subHeap [(1, 1)] [(1, 1)]) [.setTreeReadOnly 0]) 0
    ((run ms0 (subHeap [(1, 1)] [(1, 1)]) [.setTreeReadOnly 0]).tree 1)).2 = true := by
  rw [← libS_eq]; decide +kernel

end ITree
