import Verif.Proofs.MakeLocal
/-
`make_local`, and its reversal by deleting the local item.
-/
namespace ITree

/-! ### `_convert_to_local_item` -/

theorem localKids_eq (T : Tree) : localKids T true = chainUp (Tree.preL T.kids) := by
  unfold localKids
  cases hk : T.kids with
  | nil => simp [Tree.preL, chainUp]
  | cons k ks =>
    obtain ⟨s', h1, h2⟩ := convRun_spec (convFuel T) ⟨[(T, [])], [.it (k :: ks)]⟩ (by simp) (by simp [convFuel, pend, hk])
    simp only [if_true, h1, h2]
    simp [assemble, pend, clone_kids]

theorem localKids_off (T : Tree) : localKids T false = [] := by unfold localKids; cases T.kids <;> rfl

structure ConvLocalSpec (h h' : Heap) (y : Id) (nd : Node) (ks : List Tree) : Prop where
  wf : WF h'
  new : y = h.next
  lt : y < h'.next
  unchanged : Unchanged h h'
  node : ∀ i, i < h.next → h'.node i = h.node i
  forest : Forest h → Forest h'
  par : (h'.node y).parent = none
  tag : h'.tag y = nd.tag
  value : (h'.node y).value = nd.value
  flags : h'.flags y = nd.flags
  link : (h'.node y).link = nd.link
  rep : ∃ Ts : List Tree, h'.kids y = Ts.map Tree.id ∧ (∀ T ∈ Ts, Rep h' T) ∧ Ts.map Tree.shape = ks.map Tree.copyShape ∧ ∀ i ∈ Tree.idsL Ts, h.next < i ∧ i < h'.next
  below : ∀ z, Below h' y z → h.next ≤ z

theorem allocKids_spec {h : Heap} (W : WF h) (nd : Node) (h1 : nd.parent = none) (h2 : nd.items = []) (h3 : nd.fams = none) (ks : List Tree) :
    ConvLocalSpec h (buildKids (h.alloc nd).1 h.next ks) h.next nd ks := by
  have A : AllocRel h (h.alloc nd).1 h.next nd := ⟨rfl, rfl, h1, h2, Or.inl h3⟩
  have W1 := A.wf W
  have hnx : (h.alloc nd).1.next = h.next + 1 := rfl
  obtain ⟨G, Ts, k2, R2, s2, i2⟩ := buildKids_spec ks (h.alloc nd).1 h.next W1 (by omega)
  have hkn : (h.alloc nd).1.kids h.next = [] := by rw [A.kids W]; exact (W.fresh _ (Nat.le_refl _)).1
  have U := A.frame
  have hle := G.frame.next
  rw [hnx] at hle
  have hn0 : (h.alloc nd).1.node h.next = nd := by simp [Heap.alloc]
  have hl : h.next < (h.alloc nd).1.next := by omega
  refine ⟨G.wf, rfl, by omega, ?_, ?_, fun F => G.forest (A.forest W F), ?_, ?_, ?_, ?_, ?_, ⟨Ts, ?_, R2, s2, fun i hi => ?_⟩, ?_⟩
  · exact
    { next := by omega
      tag := fun i hi => (G.frame.tag i (by omega)).trans (U.tag i hi)
      value := fun i hi => (G.frame.value i (by omega)).trans (U.value i hi)
      flags := fun i hi => (G.frame.flags i (by omega)).trans (U.flags i hi)
      link := fun i hi => (G.frame.link i (by omega)).trans (U.link i hi)
      kids := fun i hi e => (G.frame.kids i (by omega) (by omega)).trans (U.kids i hi e)
      par := fun i hi e => (G.frame.par i (by omega) e).trans (U.par i hi e) }
  · intro i hi
    rw [(buildKids_node ks _ h.next i (by omega) (by omega)).1]
    simp only [Heap.alloc]
    rw [if_neg (by omega)]
  · have := G.frame.par h.next hl (fun h => h)
    simp only [Heap.par, hn0, h1, Option.map_none, Option.map_eq_none_iff] at this
    exact this
  · rw [G.frame.tag _ hl]; simp only [Heap.tag, hn0]
  · rw [G.frame.value _ hl]; simp only [hn0]
  · rw [G.frame.flags _ hl]; simp only [Heap.flags, hn0]
  · rw [G.frame.link _ hl]; simp only [hn0]
  · rw [k2, hkn]; simp
  · have := i2 i hi; omega
  · intro z hz
    have R0 : Rep (buildKids (h.alloc nd).1 h.next ks) (.node h.next ((buildKids (h.alloc nd).1 h.next ks).tag h.next) ((buildKids (h.alloc nd).1 h.next ks).node h.next).value
        ((buildKids (h.alloc nd).1 h.next ks).flags h.next) ((buildKids (h.alloc nd).1 h.next ks).node h.next).link Ts) := by
      simp only [Rep, repL_iff]
      exact ⟨trivial, trivial, trivial, trivial, by rw [k2, hkn]; simp, R2⟩
    have := (below_iff_ids R0 z).1 hz
    rw [Tree.ids_node] at this
    rcases List.mem_cons.1 this with rfl | hj
    · omega
    · have := i2 z hj; omega

/-! ### `tag_idx` does not depend on the absolute positions -/

theorem cachedPos_pair {c : Cache} {h h1 : Heap} {x : Id} {r r1 : PRef} {l : List Id} {i : Int} (e : r1.getC c = r.getC c) (f : r1.frozen = r.frozen)
    (hp : (cachedPos c h x r l).2 = .ok (i, false)) : (cachedPos c h1 x r1 l).2 = .ok (i, false) := by
  unfold cachedPos at hp ⊢
  simp only [e, f] at hp ⊢
  have slow : ∀ {g : Heap} {s : PRef}, (match windowFind l x (max 0 (r.getC c - 20)).toNat (min (l.length : Int) (r.getC c + 20 + 1)).toNat with
      | some i => if r.frozen then (g, .error .type) else (g.setParent x (some (s.setC c i)), .ok ((i : Int), false))
      | none => ((if 2 * r.getC c < l.length then scanFwd c g x l 0 else scanBwd c g x l.reverse (l.length - 1)).1,
          match (if 2 * r.getC c < l.length then scanFwd c g x l 0 else scanBwd c g x l.reverse (l.length - 1)).2 with | .ok i => .ok ((i : Int), true) | .error e => .error e) : Res (Int × Bool)).2 = .ok (i, false) →
      ∃ j : Nat, windowFind l x (max 0 (r.getC c - 20)).toNat (min (l.length : Int) (r.getC c + 20 + 1)).toNat = some j ∧ r.frozen = false ∧ i = j := by
    intro g s hh
    split at hh
    · next j hj =>
      refine ⟨j, hj, ?_⟩
      split at hh
      · simp at hh
      · next hf => simp at hh; exact ⟨by simpa using hf, hh.symm⟩
    · exfalso
      dsimp only at hh
      split at hh <;> simp at hh
  split at hp
  · next hk =>
    rw [if_pos hk]
    split at hp
    · simp at hp
    · next y hy =>
      split at hp
      · next e' => simp only [e', if_true] at hy ⊢; exact hp
      · next e' =>
        rw [if_neg e']
        obtain ⟨j, h1, h2, h3⟩ := slow hp
        simp [h1, h2, h3]
  · next hk =>
    rw [if_neg hk]
    obtain ⟨j, h1, h2, h3⟩ := slow hp
    simp [h1, h2, h3]

/-- only absolute positions changed -/
def SameFam (h h' : Heap) : Prop := ∀ i, (h'.node i).parent.map (fun r => (r.pid, r.famC, r.frozen)) = (h.node i).parent.map fun r => (r.pid, r.famC, r.frozen)

theorem SameFam.setParent {h : Heap} {y : Id} {r : PRef} (hr : (h.node y).parent = some r) (n : Int) : SameFam h (h.setParent y (some (r.setC .abs n))) := by
  intro i
  simp only [Heap.setParent, Heap.modify]
  split
  · next e => subst e; simp [hr, PRef.setC]
  · rfl

theorem SameFam.trans {a b c : Heap} (h1 : SameFam a b) (h2 : SameFam b c) : SameFam a c := fun i => (h2 i).trans (h1 i)

theorem scanFwd_sameFam (x : Id) (l : List Id) : ∀ (h : Heap) (i : Nat), SameFam h (scanFwd .abs h x l i).1 := by
  induction l with
  | nil => intro h i j; rfl
  | cons y ys ih =>
    intro h i
    simp only [scanFwd]
    split
    · intro j; rfl
    · next r hr =>
      split
      · intro j; rfl
      · split
        · exact SameFam.setParent hr _
        · exact (SameFam.setParent hr _).trans (ih _ _)

theorem scanBwd_sameFam (x : Id) (l : List Id) : ∀ (h : Heap) (i : Nat), SameFam h (scanBwd .abs h x l i).1 := by
  induction l with
  | nil => intro h i j; rfl
  | cons y ys ih =>
    intro h i
    simp only [scanBwd]
    split
    · intro j; rfl
    · next r hr =>
      split
      · intro j; rfl
      · split
        · exact SameFam.setParent hr _
        · exact (SameFam.setParent hr _).trans (ih _ _)

theorem idx_sameFam (h : Heap) (x : Id) : SameFam h (h.idx x).1 := by
  unfold Heap.idx
  split
  · intro i; rfl
  · next r hr =>
    have slow : ∀ (a b : Nat) (l : List Id) (q : Prop) [Decidable q] (m : Nat), SameFam h (match windowFind l x a b with
      | some i => if r.frozen then (h, .error .type) else (h.setParent x (some (r.setC .abs i)), .ok ((i : Int), false))
      | none => ((if q then scanFwd .abs h x l 0 else scanBwd .abs h x l.reverse m).1,
          match (if q then scanFwd .abs h x l 0 else scanBwd .abs h x l.reverse m).2 with | .ok i => .ok ((i : Int), true) | .error e => .error e) : Res (Int × Bool)).1 := by
      intro a b l q _ m
      split
      · split
        · intro i; rfl
        · exact SameFam.setParent hr _
      · dsimp only
        split
        · exact scanFwd_sameFam _ _ _ _
        · exact scanBwd_sameFam _ _ _ _
    simp only [cachedPos]
    split
    · split
      · intro i; rfl
      · split
        · intro i; rfl
        · exact slow _ _ _ _ _
    · exact slow _ _ _ _ _

/-- `tag_idx` delivers the same pair when only absolute positions were refreshed -/
theorem tagIdx_pair_congr {h h1 : Heap} (W : WF h) (W1 : WF h1) {p x : Id} (hx : x ∈ h.kids p) (hk : h1.kids p = h.kids p) (ht : ∀ c ∈ h.kids p, h1.tag c = h.tag c)
    (hr : (h1.node x).parent.map (fun r => (r.pid, r.famC, r.frozen)) = (h.node x).parent.map fun r => (r.pid, r.famC, r.frozen))
    {m : Int} (hm : (h.tagIdx x).2 = .ok (.pair (h.tag x) m)) : (h1.tagIdx x).2 = .ok (.pair (h.tag x) m) := by
  obtain ⟨r, e1, e2, e3, e4⟩ := tagIdx_eq W hx
  obtain ⟨r1, f1, f2, f3, f4⟩ := tagIdx_eq W1 (p := p) (x := x) (by rw [hk]; exact hx)
  have hv : famView h1 p (h1.tag x) = famView h p (h.tag x) := by
    unfold famView
    rw [hk, ht x hx]
    exact List.filter_congr fun c hc => by rw [ht c hc]
  rw [f1, e1] at hr
  simp only [Option.map_some, Option.some.injEq, Prod.mk.injEq] at hr
  rw [e4] at hm
  rw [f4, hv]
  have : (cachedPos .fam h x r (famView h p (h.tag x))).2 = .ok (m, false) := by
    dsimp only at hm
    split at hm <;> simp_all
  have := cachedPos_pair (h1 := h1) (r1 := r1) (by simp [PRef.getC, hr.2.1]) hr.2.2 this
  simp only [this, ht x hx]

theorem tagIdx_bare_congr {h h1 : Heap} (W : WF h) (W1 : WF h1) {p x : Id} (hx : x ∈ h.kids p) (hk : h1.kids p = h.kids p) (ht : ∀ c ∈ h.kids p, h1.tag c = h.tag c)
    (hr : (h1.node x).parent.map (fun r => (r.pid, r.famC, r.frozen)) = (h.node x).parent.map fun r => (r.pid, r.famC, r.frozen))
    {m : Int} (hm : (h.tagIdx x).2 = .ok (.bare m)) : ∃ m', (h1.tagIdx x).2 = .ok (.bare m') := by
  obtain ⟨n, -, h2⟩ := tagIdx_child W1 (p := p) (x := x) (by rw [hk]; exact hx)
  rcases h2 with h2 | h2
  · exfalso
    have := tagIdx_pair_congr (h := h1) (h1 := h) W1 W (p := p) (x := x) (by rw [hk]; exact hx) hk.symm (fun c hc => (ht c (hk ▸ hc)).symm) hr.symm h2
    rw [hm] at this; simp at this
  · exact ⟨_, h2⟩

/-! ### `make_local` -/

/-- `x` was replaced by the new item `y` -/
structure LocalSpec (h h' : Heap) (p x y : Id) (ks : List Tree) : Prop where
  wf : WF h'
  forest : Forest h → Forest h'
  new : y = h.next
  lt : y < h'.next
  frame : Frame h h' (· = p) (fun _ => False)
  kids : ∃ n : Nat, (h.kids p)[n]? = some x ∧ h'.kids p = (h.kids p).set n y
  par : h'.par y = some p
  fresh : FreshFam h' y
  abs : ∃ n : Nat, (h'.kids p)[n]? = some y ∧ ∃ r, (h'.node y).parent = some r ∧ r.absC = n
  tag : h'.tag y = h.tag x
  value : (h'.node y).value = (h.node x).value
  flags : h'.flags y = h.flags x &&& ~~~ Flags.linked
  link : (h'.node y).link = some { cover := some x }
  rep : ∃ Ts : List Tree, h'.kids y = Ts.map Tree.id ∧ (∀ T ∈ Ts, Rep h' T) ∧ Ts.map Tree.shape = ks.map Tree.copyShape ∧ ∀ i ∈ Tree.idsL Ts, h.next < i ∧ i < h'.next

theorem makeLocal_spec {h : Heap} (W : WF h) {p x : Id} (hx : x ∈ h.kids p) (hl : (h.flags x).has Flags.linked = true) (hp : h.isLinkRoot p = true) (sub : Bool) :
    (∀ m, (h.tagIdx x).2 = .ok (.pair (h.tag x) m) → (makeLocal h x sub).2 = .ok h.next ∧ LocalSpec h (makeLocal h x sub).1 p x h.next (localKids (h.tree x) sub)) ∧
    (∀ m, (h.tagIdx x).2 = .ok (.bare m) → (makeLocal h x sub).2 = .error .type ∧ Unchanged h (makeLocal h x sub).1 ∧ WF (makeLocal h x sub).1) := by
  obtain ⟨r, hr, hrp, hrf, _, _⟩ := W.kid_parent p x hx
  have hxl := W.kids_lt p x hx
  have hpl := W.lt_of_kids (p := p) (by intro e; rw [e] at hx; simp at hx)
  have S := allocKids_spec W (localNode h x) rfl rfl rfl (localKids (h.tree x) sub)
  have hc : convertLocal h x sub = (buildKids (h.alloc (localNode h x)).1 h.next (localKids (h.tree x) sub), h.next) := rfl
  generalize hg1 : buildKids (h.alloc (localNode h x)).1 h.next (localKids (h.tree x) sub) = h1 at *
  have hk1 : h1.kids p = h.kids p := S.unchanged.kids p hpl (fun h => h)
  have hx1 : x ∈ h1.kids p := by rw [hk1]; exact hx
  obtain ⟨n, hin, hn⟩ := idx_child S.wf hx1
  have C2 := idx_ceq h1 x
  have SF := idx_sameFam h1 x
  generalize hg2 : (h1.idx x).1 = h2 at *
  have W2 := C2.wf S.wf
  have hk2 : h2.kids p = h.kids p := by rw [C2.kids]; exact hk1
  have ht2 : ∀ c, c < h.next → h2.tag c = h.tag c := fun c hc => by rw [C2.tag]; exact S.unchanged.tag c hc
  have hr2 : (h2.node x).parent.map (fun r => (r.pid, r.famC, r.frozen)) = (h.node x).parent.map fun r => (r.pid, r.famC, r.frozen) := by
    rw [SF x, S.node x hxl]
  have C3 := tagIdx_ceq h2 x
  have e0 : makeLocal h x sub = (match (h2.tagIdx x).2 with
        | .error e => ((h2.tagIdx x).1, .error e)
        | .ok .none => ((h2.tagIdx x).1, .error .type)
        | .ok (.bare _) => ((h2.tagIdx x).1, .error .type)
        | .ok (.pair t m) => putLocal (h2.tagIdx x).1 p h.next n t m) := by
    unfold makeLocal
    simp only [hr, hl, hrp, hp, Bool.not_true, Bool.false_eq_true, if_false, hc, hin, hg2]
    rfl
  constructor
  · intro m hm
    have hm2 := tagIdx_pair_congr W W2 (p := p) hx hk2 (fun c hc => ht2 c (W.kids_lt p c hc)) hr2 hm
    have W3 := C3.wf W2
    obtain ⟨k, hk, hpk⟩ := tagIdx_child W2 (p := p) (x := x) (by rw [hk2]; exact hx)
    rw [hm2] at hpk
    have hmk : m = k := by
      rcases hpk with h | h
      · simp at h; exact h.2
      · simp at h
    rw [e0, hm2]
    dsimp only
    generalize hg3 : (h2.tagIdx x).1 = h3 at *
    have htx : h3.tag x = h.tag x := by rw [C3.tag]; exact ht2 x hxl
    have hk3 : h3.kids p = h.kids p := by rw [C3.kids]; exact hk2
    have hn3 : (h3.kids p)[n]? = some x := by rw [hk3, ← hk1]; exact hn
    have hv3 : (famView h3 p (h3.tag x))[k]? = some x := by rw [C3.famView, C3.tag]; exact hk
    have hty : h3.tag h.next = h3.tag x := by rw [htx, C3.tag, C2.tag, S.tag]; rfl
    obtain ⟨o, R, py, po⟩ := putLocal_swap W3 hn3 hv3 hty
    rw [htx] at o R py po
    rw [hmk]
    generalize hg4 : (putLocal h3 p h.next n (h.tag x) k).1 = h4 at *
    have hny : ∀ q, h.next ∉ h3.kids q := by
      refine W3.not_child ?_
      rw [C3.parent_none, C2.parent_none]; exact S.par
    have hyl : h.next < h3.next := by rw [C3.next, C2.next]; exact S.lt
    have W4 := R.wf W3 (p := p) (by rw [hk3]; exact hx) hyl hny
    have hle : h.next ≤ h3.next := by omega
    have hset : h4.kids p = (h.kids p).set n h.next := by
      rw [R.kids_p, hk3, set_eq_swp (W.kids_nodup p)]
      rw [← hk3]; exact hn3
    have hgk : (h4.kids p)[n]? = some h.next := by
      rw [hset, List.getElem?_set_self]
      rw [← hk3]; exact (List.getElem?_eq_some_iff.1 hn3).1
    have hym : h.next ∈ h4.kids p := List.mem_of_getElem? hgk
    refine ⟨o, W4, ?_, rfl, by rw [R.next]; exact hyl, ?_, ⟨n, by rw [← hk3]; exact hn3, hset⟩, ?_, ?_, ?_, ?_, ?_, ?_, ?_, ?_⟩
    · intro F
      refine R.forest (C3.forest (C2.forest (S.forest F))) (by rw [hk3]; exact hx) ?_
      intro hb
      have := S.below p ((Below.congr C2.kids).1 ((Below.congr C3.kids).1 hb))
      omega
    · exact
      { next := by rw [R.next]; omega
        tag := fun i hi => by rw [R.tag, C3.tag]; exact ht2 i hi
        value := fun i hi => by rw [R.value, C3.value, C2.value]; exact S.unchanged.value i hi
        flags := fun i hi => by rw [R.flags, C3.flags, C2.flags]; exact S.unchanged.flags i hi
        link := fun i hi => by rw [R.link, C3.link, C2.link]; exact S.unchanged.link i hi
        kids := fun i hi e => by rw [R.kids_o i e, C3.kids, C2.kids]; exact S.unchanged.kids i hi (fun h => h)
        par := fun i hi e => by
          have : h4.par i = h3.par i := by simp only [Heap.par]; rw [po i (by omega)]
          rw [this, C3.par', C2.par']; exact S.unchanged.par i hi (fun h => h) }
    · simp only [Heap.par, py]; rfl
    · refine ⟨p, hym, _, py, by simp [PRef.getC], ?_⟩
      have e1 : famView h4 p (h4.tag h.next) = (famView h3 p (h3.tag x)).map (swp x h.next) := by
        rw [R.tag, hty]
        unfold famView
        rw [R.kids_p]
        have : (fun c => decide (h4.tag c = h3.tag x)) = fun c => decide (h3.tag c = h3.tag x) := by funext c; rw [R.tag]
        rw [this, filter_swp]
        simp [hty]
      rw [e1]
      simp only [PRef.getC, Int.toNat_natCast, List.getElem?_map, hv3, Option.map_some, swp, if_true]
    · exact ⟨n, hgk, _, py, rfl⟩
    · rw [R.tag, C3.tag, C2.tag, S.tag]; rfl
    · rw [R.value, C3.value, C2.value, S.value]; rfl
    · rw [R.flags, C3.flags, C2.flags, S.flags]; rfl
    · rw [R.link, C3.link, C2.link, S.link]; rfl
    · obtain ⟨Ts, t1, t2, t3, t4⟩ := S.rep
      refine ⟨Ts, ?_, ?_, t3, fun i hi => ?_⟩
      · rw [R.kids_o _ (by omega), C3.kids, C2.kids]; exact t1
      · intro T hT
        refine (t2 T hT).congr fun i hi => ?_
        have := t4 i (Tree.mem_idsL.2 ⟨T, hT, hi⟩)
        exact ⟨by rw [R.tag, C3.tag, C2.tag], by rw [R.value, C3.value, C2.value], by rw [R.flags, C3.flags, C2.flags], by rw [R.link, C3.link, C2.link],
          by rw [R.kids_o _ (by omega), C3.kids, C2.kids]⟩
      · have := t4 i hi
        rw [R.next, C3.next, C2.next]; exact this
  · intro m hm
    obtain ⟨m', hm2⟩ := tagIdx_bare_congr W W2 (p := p) hx hk2 (fun c hc => ht2 c (W.kids_lt p c hc)) hr2 hm
    rw [e0, hm2]
    refine ⟨rfl, ?_, C3.wf W2⟩
    exact
      { next := by rw [C3.next, C2.next]; exact S.unchanged.next
        tag := fun i hi => by rw [C3.tag]; exact ht2 i hi
        value := fun i hi => by rw [C3.value, C2.value]; exact S.unchanged.value i hi
        flags := fun i hi => by rw [C3.flags, C2.flags]; exact S.unchanged.flags i hi
        link := fun i hi => by rw [C3.link, C2.link]; exact S.unchanged.link i hi
        kids := fun i hi e => by rw [C3.kids, C2.kids]; exact S.unchanged.kids i hi e
        par := fun i hi e => by rw [C3.par', C2.par']; exact S.unchanged.par i hi e }

end ITree
