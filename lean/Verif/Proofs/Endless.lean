import Verif.Proofs.Ready3
import Verif.Proofs.DeepMut
import Verif.Props.Ready
/-! # A walk of `load_links()` that never comes to an end: the item it looks at is always a copy that has just been made -/
namespace ITree
section
variable {h : Heap}

/-- loading a childless link root whose source has one child, which is no link root (but may contain some) -/
theorem one_child (fe : FileEnv) (C : Core h) (Z : NoZombie h) (F : AllFresh h) (n : Nat) {p s c : Id} {lk : LinkSt} (hp : p < h.next) (hr : h.isLinkRoot p = true) (hk : h.kids p = []) (hl : (h.node p).link = some lk) (ho : lk.OwnTree)
    (hd : lk.loaded = false) (hq : dropRoot (h.tag (h.root p)) lk.path = lk.path) (V : LeadsVia h (h.root p) lk.path s) (hs : h.isLinkRoot s = false) (ks : h.kids s = [c])
    (cr : h.isLinkRoot c = false) (cl : (h.flags c).has Flags.linked = false) :
    ∃ (h' : Heap) (T : Tree), loadLinks (linkEnv fe) false (n + 1) h p = (h', .ok true) ∧ LKeeps h h' ∧ AllFresh h' ∧ LoadsOnly (fun i => i = p) h h' ∧ h'.kids p = [T.id] ∧ Rep h' T ∧
      T.shape = (linkedTree (h.tree c)).copyShape ∧ ∀ i ∈ T.ids, h.next ≤ i ∧ i < h'.next := by
  have V' : LeadsVia h (h.root p) (dropRoot (h.tag (h.root p)) lk.path) s := hq.symm ▸ V
  have N : Nested h false 1 p (fun i => i = p) := .mk (m := 0) (s := s) (lk := lk) (fun _ _ => False) hp hr hk hl ho (.inr hd) V' hs (by rw [ks]; intro x hx; rw [List.mem_singleton] at hx; subst hx; exact cl)
    (by rw [ks]; intro x hx; rw [List.mem_singleton] at hx; subst hx; intro e; rw [cr] at e; cases e) (fun _ _ _ => id) (fun _ _ _ _ _ _ _ _ => False.elim) (fun i => by simp)
  obtain ⟨K, O, FF, H⟩ := nested_loads fe false (n + 1) 1 h p _ C Z N
  obtain ⟨F', hb⟩ := FF F
  obtain ⟨b, hb⟩ := hb (by omega)
  obtain ⟨rfl, -⟩ := H b hb
  have hact : loadActive (linkEnv fe) h p lk false = (h, .ok true) := by rw [loadActive, if_pos (by simp [hd])]
  have hf : (linkEnv fe).find h p = (h, .ok s) := by
    have e := (getTarget_keeps C fe hl ho).1
    rw [getTarget_ok C fe hl ho V'.to, setLink_id hl (by rw [hq])] at e
    exact e
  have eAll : loadLinks (linkEnv fe) false (n + 1) h p = takeOver (loadLinks (linkEnv fe) false n) h p s := by
    simp only [loadLinks, hl, hact, hf]
  have nsp : s ≠ p := fun e => by rw [e, hr] at hs; cases hs
  have e2 : numberKids h p = (h, .ok []) := by simp only [numberKids, hk]; rfl
  obtain ⟨f1, f2, f3, f4, f5, f6, f7, f8, f9⟩ := dropKids_facts h p
  have kk : ∀ i, (dropKids h p).kids i = h.kids i := fun i => by
    rw [f2]; split
    · next e => rw [e, hk]
    · rfl
  have C2 := (dropKids_keeps C hk).core
  have F2 : AllFresh (dropKids h p) := F.struct f4 kk f8
  have hc : c < h.next := C.wf.kids_lt s c (by simp [ks])
  have tr : (dropKids h p).tree c = h.tree c :=
    tree_same C C2.wf fun i _ => ⟨f4 i, f5 i, f6 i, f7 i, kk i⟩
  have tf := (tree_flags C c).1
  have eE : localItems h [] = [] := rfl
  rw [eAll] at hb K O F' ⊢
  simp only [takeOver, e2, eE, kk, ks] at hb K O F' ⊢
  generalize dropKids h p = h2 at *
  have B := build_spec C2.wf (linkedTree (h.tree c))
  have FB := F2.build C2.wf (linkedTree (h.tree c))
  have el : linkedItem (loadLinks (linkEnv fe) false n) h2 c = ((build h2 (linkedTree (h.tree c))).1, .ok (build h2 (linkedTree (h.tree c))).2) := by
    rw [← tr]
    exact linkedItem_plain _ h2 c (by rw [f6]; simpa [Heap.isLinkRoot] using cr) (by rw [f6]; exact cl) (by rw [f6, tr, tf])
  generalize build h2 (linkedTree (h.tree c)) = b at *
  obtain ⟨b1, x⟩ := b
  obtain ⟨T, t1, t2, t3, t4⟩ := B.rep
  dsimp only at *
  have hsl : s < h.next := C.wf.lt_of_kids (by rw [ks]; simp)
  have kb : ∀ i, i < h.next → b1.kids i = h.kids i := fun i hi => (B.unchanged.kids i (by rw [f1]; exact hi) id).trans (kk i)
  have hck : c ∈ b1.kids s := by rw [kb s hsl, ks]; simp
  obtain ⟨q, m, hq1, hq2, et⟩ := tagIdx_of_fresh B.wf ⟨s, hck, FB s c hck⟩
  have eL : loadLoop (loadLinks (linkEnv fe) false n) p s h2 [c] [] [] = (appendItem b1 p x, .ok ([], [(b1.tag c, m)])) := by
    simp [loadLoop, el, et]
  rw [eL] at hb K O F' ⊢
  simp only [List.filterMap_nil, List.foldl_nil] at hb K O F' ⊢
  have A := appendItem_attach B.wf (p := p) B.par
  have hpl : p < b1.next := Nat.lt_of_lt_of_le hp (by rw [← f1]; exact B.unchanged.next)
  have lo : ∀ i ∈ T.ids, h.next ≤ i ∧ i < b1.next := fun i hi => by have := t4 i hi; rwa [f1] at this
  refine ⟨_, T, rfl, K, F', O, ?_, ?_, t3, fun i hi => ⟨(lo i hi).1, by have := (lo i hi).2; rw [← A.next] at this; exact this⟩⟩
  · rw [t1]
    have := A.kids_p
    rw [kb p hp, hk] at this
    simpa [Heap.kids, Heap.modify] using this
  · refine t2.congr fun i hi => ?_
    have ne : i ≠ p := fun e => by have := (lo i hi).1; omega
    have e := A.kids_o i ne
    have e2 := A.tag i
    have e3 := A.value i
    have e4 := A.flags i
    have e5 := A.link i
    refine ⟨?_, ?_, ?_, ?_, ?_⟩
    · simpa [Heap.tag, Heap.modify, if_neg ne] using e2
    · simpa [Heap.modify, if_neg ne] using e3
    · simpa [Heap.flags, Heap.modify, if_neg ne] using e4
    · simpa [Heap.modify, if_neg ne] using e5
    · simpa [Heap.kids, Heap.modify, if_neg ne] using e
end

/-! The tree `R(S(c(P)), D(Q))`: the links of `P` and `Q` lead to `S`. -/

/-- the calls -/
def endlessCalls : List Call := [.new (.str "R") .noValue [] 0#6, .new (.str "S") .noValue [] 0#6, .append 0 (.item 1), .new (.str "c") (.int 1) [] 0#6, .append 1 (.item 2),
  .newLink (.str "P") .noValue [] 0#6 none [.pair (.str "S") (.int 0)], .append 2 (.item 3), .new (.str "D") .noValue [] 0#6, .append 0 (.item 4),
  .newLink (.str "Q") .noValue [] 0#6 none [.pair (.str "S") (.int 0)], .append 4 (.item 5)]
def endlessHeap : Heap := run ms0 Heap.empty endlessCalls
theorem endlessHeap_grown : BuiltUp ms0 endlessHeap := grown_run _ .empty (by decide +kernel) (by decide +kernel)

/-- the state in which the walk is at the link root `x` that is not loaded yet -/
structure AtLink (g : Heap) (x : Id) : Prop where
  core : Core g
  nz : NoZombie g
  fresh : AllFresh g
  only : LoadBut (fun i => i = 5) endlessHeap g
  lt : x < g.next
  high : 5 ≤ x
  root : g.isLinkRoot x = true
  kids : g.kids x = []
  link : (g.node x).link = some { path := [.pair (.str "S") (.int 0)] }
  top : g.root x = 0

theorem atLink_start : AtLink endlessHeap 5 where
  core := endlessHeap_grown.tidy.reach.core
  nz := endlessHeap_grown.tidy.inv.2
  fresh := endlessHeap_grown.fresh
  only := (LoadsOnly.refl _ _).loadBut endlessHeap_grown.tidy.reach.core endlessHeap_grown.tidy.inv.2
  lt := by decide +kernel
  high := by decide +kernel
  root := by decide +kernel
  kids := by decide +kernel
  link := by decide +kernel
  top := by decide +kernel

theorem endless_via : LeadsVia endlessHeap 0 [.pair (.str "S") (.int 0)] 1 :=
  .step (by decide +kernel) (by decide +kernel) (.key ⟨0, by decide +kernel, Or.inl rfl⟩ (.here 1)) (.here 1)

theorem AtLink.step {g : Heap} {x : Id} (I : AtLink g x) (fe : FileEnv) (n : Nat) :
    ∃ (g' : Heap) (y z : Id), loadLinks (linkEnv fe) false (n + 1) g x = (g', .ok true) ∧ g'.kids x = [y] ∧ g'.isLinkRoot y = false ∧ g'.kids y = [z] ∧ AtLink g' z := by
  have C := I.core
  have O := I.only
  have en : endlessHeap.next = 6 := by decide +kernel
  have k1 : g.kids 1 = [2] := (O.kids 1 (by omega) (by decide)).trans (by decide +kernel)
  have k2 : g.kids 2 = [3] := (O.kids 2 (by omega) (by decide)).trans (by decide +kernel)
  have k3 : g.kids 3 = [] := (O.kids 3 (by omega) (by decide)).trans (by decide +kernel)
  have fl : ∀ i, i < 6 → g.flags i = endlessHeap.flags i := fun i hi => O.flags i (by omega)
  have r1 : g.isLinkRoot 1 = false := by rw [Heap.isLinkRoot, fl 1 (by omega)]; decide +kernel
  have r2 : g.isLinkRoot 2 = false := by rw [Heap.isLinkRoot, fl 2 (by omega)]; decide +kernel
  have l2 : (g.flags 2).has Flags.linked = false := by rw [fl 2 (by omega)]; decide +kernel
  have V : LeadsVia g 0 [.pair (.str "S") (.int 0)] 1 := O.via endlessHeap_grown.tidy.reach.core.wf (fun i e => by subst e; decide +kernel) endless_via
  have t0 : g.tag 0 = .str "R" := (O.tag 0 (by omega)).trans (by decide +kernel)
  obtain ⟨g', T, e, K, F', O', kx, R, sh, lo⟩ := one_child fe C I.nz I.fresh n I.lt I.root I.kids I.link (Or.inl rfl) rfl (by rw [I.top, t0]; decide) (by rw [I.top]; exact V) r1 k1 r2 l2
  -- the copied tree
  obtain ⟨a1, a2, a3, a4, a5⟩ := tree_flags C 2
  rw [k2] at a4
  obtain ⟨k, ek⟩ : ∃ k, (g.tree 2).kids = [k] := List.length_eq_one_iff.1 (by have := congrArg List.length a4; simpa using this)
  have Rk : Rep g k := a5 k (by simp [ek])
  have ik : k.id = 3 := by rw [ek] at a4; simpa using a4
  have f3 : g.flags 3 = Flags.linkRoot := (fl 3 (by omega)).trans (by decide +kernel)
  have l3 : (g.node 3).link = some { path := [.pair (.str "S") (.int 0)] } := (O.link 3 (by omega) (by decide)).trans (by decide +kernel)
  have f2 : g.flags 2 = 0#6 := (fl 2 (by omega)).trans (by decide +kernel)
  obtain ⟨i, t, v, f, l, ks⟩ := k
  simp only [Tree.id] at ik
  subst ik
  rw [Rep] at Rk
  obtain ⟨-, -, q3, q4, q5, -⟩ := Rk
  rw [k3] at q5
  have eks : ks = [] := by simpa using q5.symm
  subst eks
  rw [f3] at q3
  rw [l3] at q4
  subst q3 q4
  rw [f2] at a1
  generalize g.tree 2 = U at a1 ek sh
  obtain ⟨iu, tu, vu, fu, lu, us⟩ := U
  simp only [Tree.kids, Tree.flags] at ek a1
  subst ek a1
  obtain ⟨y, ty, vy, fy, ly, ys⟩ := T
  simp only [linkedTree, Tree.kids, Tree.preL, Tree.pre, List.append_nil, chainUp, linkClone, Tree.shape, Tree.copyShape, Tree.copyShapeL, copyLink, Shape.node.injEq] at sh
  obtain ⟨-, -, sf, -, sk⟩ := sh
  obtain ⟨Z, rfl⟩ : ∃ Z, ys = [Z] := by
    cases ys with
    | nil => simp [Tree.shapeL] at sk
    | cons Z r => cases r with
      | nil => exact ⟨Z, rfl⟩
      | cons => simp [Tree.shapeL] at sk
  obtain ⟨z, tz, vz, fz, lz, zs⟩ := Z
  simp only [Tree.shapeL, Tree.shape, List.cons.injEq, Shape.node.injEq, and_true] at sk
  obtain ⟨-, -, zf, zl, zk⟩ := sk
  have ez : zs = [] := by cases zs with | nil => rfl | cons a b => simp [Tree.shapeL] at zk
  subst ez
  have lz' := lo z (by simp [Tree.ids_node, Tree.mem_idsL])
  simp only [Rep, repL_iff, List.map_cons, List.map_nil, Tree.id] at R
  obtain ⟨-, -, R3, -, ky, Rz⟩ := R
  have Rz := Rz _ (List.mem_singleton.2 rfl)
  simp only [Rep, repL_iff, List.map_nil] at Rz
  obtain ⟨-, -, Z3, Z4, kz, -⟩ := Rz
  have hf : fz = Flags.linkRoot ||| Flags.linked := zf
  have hl : lz = some { path := [.pair (.str "S") (.int 0)] }  := by
    have h1 : (Flags.linkRoot ||| Flags.linked).has Flags.linkRoot = true := by decide
    have h2 : Flags.linkRoot.has Flags.linkRoot = true := by decide
    exact (zl.trans (if_pos h1)).trans (congrArg (Option.map _) (if_pos h2))
  have hy : fy = 0#6 ||| Flags.linked := sf
  have C' := K.core
  have Z' := K.nz I.nz
  simp only [Tree.id] at kx
  have par : ∀ a b, g'.kids a = [b] → g'.par b = some a := fun a b e => by
    obtain ⟨r, e1, e2, -⟩ := C'.wf.kid_parent a b (by simp [e])
    simp [Heap.par, e1, e2]
  have py := par _ _ kx
  have pz := par _ _ ky
  have rx : g'.root x = 0 := (O'.root C I.nz I.lt).1.trans I.top
  refine ⟨g', y, z, e, kx, ?_, ky, C', Z', F', ?_, lz'.2, ?_, ?_, kz, ?_, ?_⟩
  · rw [Heap.isLinkRoot, R3, hy]; decide
  · exact (O.trans (O'.loadBut C I.nz)).mono fun i hi hx => by have := I.high; rcases hx with h | h <;> omega
  · have := I.lt; have := I.high; omega
  · rw [Heap.isLinkRoot, Z3, hf]; decide
  · rw [Z4, hl]
  · obtain ⟨k, r, e1, e2, e3⟩ := climb C' Z' z
    have ez : g'.root z = r := rootAux_eq k _ z r e1 e2 e3
    match k, e1, e3 with
    | 0, e1, _ => simp only [ancestor, Option.some.injEq] at e1; subst e1; rw [pz] at e2; cases e2
    | 1, e1, _ => simp only [ancestor, pz, Option.bind_some, Option.some.injEq] at e1; subst e1; rw [py] at e2; cases e2
    | k + 2, e1, e3 =>
      simp only [ancestor, pz, py, Option.bind_some] at e1
      rw [ez, ← rx]
      exact (rootAux_eq k _ x r e1 e2 (by omega)).symm

/-- the walk never comes to an end -/
theorem endless_walk (fe : FileEnv) (n : Nat) : ∀ (k : Nat) (g : Heap) (x c : Id) (i : Nat) (st : List (Id × Nat)) (b : Bool), AtLink g x → (g.kids c)[i]? = some x → loadBelow (linkEnv fe) false (n + 1) k g ((c, i) :: st) b = none
  | 0, _, _, _, _, _, _, _, _ => rfl
  | 1, g, x, c, i, st, b, I, hx => by
    obtain ⟨g', y, z, e, -⟩ := I.step fe n
    rw [loadBelow]; simp only [hx, I.root, if_true, e]; rfl
  | k + 2, g, x, c, i, st, b, I, hx => by
    obtain ⟨g', y, z, e, kx, ry, ky, I'⟩ := I.step fe n
    rw [loadBelow]
    simp only [hx, I.root, if_true, e, kx, List.cons_ne_nil, if_false]
    rw [loadBelow]
    simp only [kx, List.getElem?_cons_zero, ry, Bool.false_eq_true, if_false, ky, List.cons_ne_nil]
    exact endless_walk fe n k g' z y 0 _ _ I' (by simp [ky])
end ITree
