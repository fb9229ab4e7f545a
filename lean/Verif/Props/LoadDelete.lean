import Verif.Proofs.LoadDelete
import Verif.Props.FindLink
/-
C76: `load_links(delete_invalid_items=True)`.
-/
namespace ITree

/-- The link of `x` leads nowhere: the path of a link into the own tree has no target, or the file is missing. -/
def BrokenLink (fe : FileEnv) (h : Heap) (x : Id) (lk : LinkSt) : Prop :=
  (h.node x).link = some lk ∧ ((lk.OwnTree ∧ ∀ s, ¬ LeadsTo h (h.root x) (dropRoot (h.tag (h.root x)) lk.path) s) ∨ ∃ f, lk.theFile = some f ∧ fe.sum f = none)

/-- the search of a broken link fails and changes at most the stored path -/
theorem broken_find {fe : FileEnv} {h : Heap} (C : Core h) {x : Id} {lk : LinkSt} (B : BrokenLink fe h x lk) : ∃ g e, getTarget fe h x = (g, .error e) ∧ Keeps h g ∧ (∀ i, g.kids i = h.kids i) ∧ (∀ i, g.par i = h.par i) ∧
    (∀ i, g.tag i = h.tag i) ∧ (∀ i, g.flags i = h.flags i) ∧ (∀ i, (g.node i).value = (h.node i).value) ∧ (∀ i, i ≠ x → (g.node i).link = (h.node i).link) ∧ ∃ p, (g.node x).link = some { lk with path := p } := by
  obtain ⟨hl, (⟨hf, hb⟩ | ⟨f, hf, hs⟩)⟩ := B
  · obtain ⟨f1, f2⟩ := C76_find fe C.wf hl hf
    have S := setLink_structEq h x fun l => { l with path := dropRoot (h.tag (h.root x)) lk.path }
    cases hg : (getTarget fe h x).2 with
    | ok s => exact absurd ((f2 s).1 hg) (hb s)
    | error e =>
      refine ⟨h.setLink x fun l => { l with path := dropRoot (h.tag (h.root x)) lk.path }, e, Prod.ext f1 hg, ⟨⟨S.wf C.wf, S.forest C.forest, fun y => ?_⟩, Nat.le_of_eq S.next.symm, S.noZombie⟩, S.kids, S.par, S.tag, setLink_flags h x _, setLink_value h x _, fun i hi => ?_, ?_⟩
      · have := C.nocov y
        unfold coverOf at this ⊢
        rw [setLink_link]
        by_cases hy : y = x
        · subst hy
          rw [if_pos rfl]
          cases hh : (h.node y).link with
          | none => rfl
          | some l => rw [hh] at this; exact this
        · rw [if_neg hy]; exact this
      · rw [setLink_link, if_neg hi]
      · exact ⟨dropRoot (h.tag (h.root x)) lk.path, by rw [setLink_link, if_pos rfl, hl]; rfl⟩
  · have e : getTarget fe h x = (h, .error .file) := by simp only [getTarget, hl, hf, hs]
    exact ⟨h, .file, e, Keeps.refl C, fun _ => rfl, fun _ => rfl, fun _ => rfl, fun _ => rfl, fun _ => rfl, fun _ _ => rfl, lk.path, by rw [hl]⟩

/-- C76. `x.load_links(delete_invalid_items=True)` on a link root `x` whose link is to be loaded and leads nowhere delivers False.  `x` is taken out of its parent `q`, if it has one (if `q` is protected and no link
root, the call is refused).  All else – children, parents, tags, values, flags, the other links – stays. -/
theorem C76_delete_broken {ms : ModelSet} {h : Heap} (R : Reach ms h) (fe : FileEnv) (force : Bool) (n : Nat) {x : Id} {lk : LinkSt} (B : BrokenLink fe h x lk) (ha : force = true ∨ lk.loaded = false) :
    ∃ h', (∀ i, h'.tag i = h.tag i ∧ h'.flags i = h.flags i ∧ (h'.node i).value = (h.node i).value ∧ (i ≠ x → (h'.node i).link = (h.node i).link)) ∧ WF h' ∧ Forest h' ∧
      (h.par x = none → loadLinksDel (linkEnv fe) force (n + 1) h x = (h', .ok false) ∧ (∀ i, h'.kids i = h.kids i ∧ h'.par i = h.par i)) ∧
      (∀ q m, (h.kids q)[m]? = some x → h.isProtected q = false → loadLinksDel (linkEnv fe) force (n + 1) h x = (h', .ok false) ∧ h'.kids q = (h.kids q).take m ++ (h.kids q).drop (m + 1) ∧ h'.par x = none ∧
        (∀ i, i ≠ q → h'.kids i = h.kids i) ∧ ∀ i, i ≠ x → h'.par i = h.par i) ∧
      (∀ q, x ∈ h.kids q → h.isProtected q = true → h.isLinkRoot q = false → loadLinksDel (linkEnv fe) force (n + 1) h x = (h', .error .permission) ∧ (∀ i, h'.kids i = h.kids i ∧ h'.par i = h.par i)) := by
  have C := R.core
  obtain ⟨g, e, f1, K, gk, gp, gt, gf, gv, gl, -⟩ := broken_find C B
  have hact : loadActive (linkEnv fe) h x lk force = (h, .ok true) := by
    rw [loadActive, if_pos]
    rcases ha with rfl | e
    · rfl
    · simp [e]
  have hfind : (linkEnv fe).find h x = (g, .error e) := f1
  have hrun : loadLinksDel (linkEnv fe) force (n + 1) h x = match g.par x with
      | none => (g, .ok false)
      | some q => match (remove g q x).2 with
        | .error e => ((remove g q x).1, .error e)
        | .ok _ => ((remove g q x).1, .ok false) := by
    simp only [loadLinksDel, B.1, hact, hfind]
    cases g.par x <;> rfl
  rw [gp] at hrun
  have data : ∀ i, g.tag i = h.tag i ∧ g.flags i = h.flags i ∧ (g.node i).value = (h.node i).value ∧ (i ≠ x → (g.node i).link = (h.node i).link) := fun i => ⟨gt i, gf i, gv i, gl i⟩
  by_cases hq : ∃ q, x ∈ h.kids q ∧ h.isProtected q = false
  · obtain ⟨q, hxq, hpr⟩ := hq
    have hpar := par_child C.wf hxq
    obtain ⟨m, hm⟩ := List.mem_iff_getElem?.1 hxq
    obtain ⟨h', r1, r2, r3, r4, -, C'⟩ := delByItem_succ K.core (p := q) (x := x) (n := m) (by simp only [Heap.isProtected, gf]; exact hpr) (by rw [gk]; exact hm)
    have r0 : remove g q x = (h', .ok x) := by rw [remove, gp, if_pos hpar, r1]
    rw [hpar] at hrun
    simp only [r0] at hrun
    obtain ⟨_, D⟩ := delByItem_ok K.core.wf K.core.nocov (by rw [gk]; exact hm) r1
    refine ⟨h', fun i => ⟨(D.tag i).trans (gt i), (D.flags i).trans (gf i), (D.value i).trans (gv i), fun hi => (D.link i).trans (gl i hi)⟩, C'.wf, C'.forest, fun hn => ?_, fun q' m' hm' _ => ?_, fun q' hq' hp' => ?_⟩
    · rw [hpar] at hn; cases hn
    · have hqq : q' = q := by have := par_child C.wf (List.mem_of_getElem? hm'); rw [hpar] at this; cases this; rfl
      subst hqq
      have hmm : m' = m := by rw [← nodup_idxOf_unique (C.wf.kids_nodup q') hm, nodup_idxOf_unique (C.wf.kids_nodup q') hm']
      subst hmm
      refine ⟨hrun, by rw [r2, gk], r3, fun i hi => by rw [D.kids_o i hi, gk], fun i hi => by rw [D.par', if_neg hi, gp]⟩
    · have hqq : q' = q := by have := par_child C.wf hq'; rw [hpar] at this; cases this; rfl
      subst hqq
      rw [hpr] at hp'; cases hp'
  · by_cases hq2 : ∃ q, x ∈ h.kids q ∧ h.isProtected q = true ∧ h.isLinkRoot q = false
    · obtain ⟨q, hxq, hpr, hlr⟩ := hq2
      have hpar := par_child C.wf hxq
      have H := idx_ceq g x
      obtain ⟨m, i1, i2⟩ := idx_child K.core.wf (by rw [gk]; exact hxq)
      have hg : guardDel (g.idx x).1 q = .error .permission := by
        have a : (g.idx x).1.isProtected q = true := by simp only [Heap.isProtected, Heap.flags]; rw [H.node q]; show (g.flags q).has _ = true; rw [gf q]; exact hpr
        have b : (g.idx x).1.isLinkRoot q = false := by simp only [Heap.isLinkRoot, Heap.flags]; rw [H.node q]; show (g.flags q).has _ = false; rw [gf q]; exact hlr
        simp [guardDel, a, b]
      have r0 : remove g q x = ((g.idx x).1, .error .permission) := by
        rw [remove, gp, if_pos hpar]
        simp only [delByItem, i1, delInt, hg]
      rw [hpar] at hrun
      simp only [r0] at hrun
      have K2 := H.keeps K.core
      refine ⟨(g.idx x).1, fun i => ?_, K2.core.wf, K2.core.forest, fun hn => ?_, fun q' m' hm' hp' => ?_, fun q' hq' hp' _ => ⟨hrun, fun i => ⟨by rw [H.kids, gk], by rw [H.par', gp]⟩⟩⟩
      · refine ⟨?_, ?_, ?_, fun hi => ?_⟩
        · rw [← gt]; simp only [Heap.tag]; rw [H.node i]
        · rw [← gf]; simp only [Heap.flags]; rw [H.node i]
        · rw [← gv, H.node i]
        · rw [← gl i hi, H.node i]
      · rw [hpar] at hn; cases hn
      · exact absurd ⟨q', List.mem_of_getElem? hm', hp'⟩ hq
    · refine ⟨g, data, K.core.wf, K.core.forest, fun hn => ?_, fun q' m' hm' hp' => absurd ⟨q', List.mem_of_getElem? hm', hp'⟩ hq, fun q' hq' hp' hl' => absurd ⟨q', hq', hp', hl'⟩ hq2⟩
      rw [hn] at hrun
      exact ⟨hrun, fun i => ⟨gk i, gp i⟩⟩

/-- a root 0, its child 1 with the child 2, and the link roots 3 and 4 behind it, with the given paths -/
def twoLinks (p1 p2 : List Tag) : Heap := run ms0 Heap.empty [.new (.str "R") .noValue [] 0#6, .new (.str "A") .noValue [] 0#6, .append 0 (.item 1), .new (.str "B") .noValue [] 0#6, .append 1 (.item 2),
  .newLink (.str "L") .noValue [] 0#6 none p1, .append 0 (.item 3), .newLink (.str "M") .noValue [] 0#6 none p2, .append 0 (.item 4)]
theorem twoLinks_tidy (l : List Tag) (hl : l = [.int 9] ∨ l = [.int 0]) : Tidy ms0 (twoLinks [.int 9] l) := by
  rcases hl with rfl | rfl <;> exact tidy_run _ .empty (by decide +kernel)

/-- the path `[9]` leads nowhere in `twoLinks` -/
theorem twoLinks_broken (l : List Tag) (hl : l = [.int 9] ∨ l = [.int 0]) : BrokenLink noFiles (twoLinks [.int 9] l) 3 { path := [.int 9] } := by
  have C := (twoLinks_tidy l hl).reach.core
  have e1 : ((twoLinks [.int 9] l).node 3).link = some { path := [.int 9] } := by rcases hl with rfl | rfl <;> decide +kernel
  refine ⟨e1, .inl ⟨Or.inl rfl, fun s hs => ?_⟩⟩
  have := ((C76_find noFiles C.wf e1 (Or.inl rfl)).2 s).2 hs
  have e2 : (match (getTarget noFiles (twoLinks [.int 9] l) 3).2 with | .ok _ => false | .error _ => true) = true := by rcases hl with rfl | rfl <;> decide +kernel
  rw [this] at e2
  cases e2

example : ∃ h', loadLinksDel (linkEnv noFiles) false 201 (twoLinks [.int 9] [.int 0]) 3 = (h', .ok false) ∧ h'.kids 0 = [1, 4] ∧ h'.par 3 = none := by
  obtain ⟨h', -, -, -, -, H, -⟩ := C76_delete_broken (twoLinks_tidy _ (.inr rfl)).reach noFiles false 200 (twoLinks_broken _ (.inr rfl)) (.inr rfl)
  obtain ⟨e, k, q, -⟩ := H 0 1 (by decide +kernel) (by decide +kernel)
  exact ⟨h', e, by rw [k]; decide +kernel, q⟩

/-- C76, full statement: `p.load_links(delete_invalid_items=True)` removes every link root below `p` whose link leads nowhere and loads the others.  Proved for an item `p` that is no link root with exactly one link
root `x` below it, to be loaded and broken, under an unprotected parent `q`: the call delivers False, `x` is taken out of `q`, and all else stays.  Missing: several link roots – there the statement is false, see
`C76_delete_next_wrong` and `C76_delete_nested_wrong`. -/
theorem C76_delete_only_partial {ms : ModelSet} {h : Heap} (R : Reach ms h) (fe : FileEnv) (force : Bool) (n : Nat) {p q x : Id} {m : Nat} {lk : LinkSt} (hb : Below h p q) (hm : (h.kids q)[m]? = some x)
    (hr : h.isLinkRoot x = true) (ho : ∀ y, Below h p y → y ≠ x → h.isLinkRoot y = false) (hu : h.isProtected q = false) (B : BrokenLink fe h x lk) (ha : force = true ∨ lk.loaded = false) :
    ∃ h', Delivers (fun k => callLoadLinksDel (linkEnv fe) force (n + 2) k h p) (h', .ok false) ∧ h'.kids q = (h.kids q).take m ++ (h.kids q).drop (m + 1) ∧ h'.par x = none ∧ (∀ i, i ≠ q → h'.kids i = h.kids i) ∧
      (∀ i, i ≠ x → h'.par i = h.par i ∧ (h'.node i).link = (h.node i).link) ∧ ∀ i, h'.tag i = h.tag i ∧ h'.flags i = h.flags i ∧ (h'.node i).value = (h.node i).value := by
  have C := R.core
  obtain ⟨h', data, W', F', -, H, -⟩ := C76_delete_broken R fe force n B ha
  obtain ⟨e, k1, k2, k3, k4⟩ := H q m hm hu
  refine ⟨h', ?_, k1, k2, k3, fun i hi => ⟨k4 i hi, (data i).2.2.2 hi⟩, fun i => ⟨(data i).1, (data i).2.1, (data i).2.2.1⟩⟩
  have hxq : x ∈ h.kids q := List.mem_of_getElem? hm
  have hpx : p ≠ x := fun e => C.forest.irrefl (e ▸ hxq) (e ▸ hb)
  have hpr : h.isLinkRoot p = false := ho p .refl hpx
  have nd := C.wf.kids_nodup q
  have hqx : q ≠ x := fun e => C.forest.irrefl (e ▸ hxq) (e ▸ Below.refl)
  have M : Removed h h' x := by
    refine ⟨W', F', fun c j y hy => ?_, fun c hc => ?_, fun i => (data i).2.1⟩
    · by_cases hc : c = q
      · subst hc
        rw [k1, ← List.eraseIdx_eq_take_drop_succ] at hy
        obtain ⟨t, ht⟩ := List.mem_iff_getElem?.1 hy
        rw [List.getElem?_drop, List.getElem?_eraseIdx] at ht
        rw [List.mem_iff_getElem?]
        split at ht
        · exact ⟨t, by rw [List.getElem?_drop]; exact ht⟩
        · exact ⟨t + 1, by rw [List.getElem?_drop]; exact ht⟩
      · rw [k3 c hc] at hy; exact hy
    · have := par_child W' hc
      rw [k2] at this; cases this
  have T := tree_rep C.wf C.forest p
  have hk : h.kids p = (h.tree p).kids.map Tree.id := by have := T.kids; rw [tree_id] at this; exact this
  have RL : RepL h (h.tree p).kids := (repL_iff _).2 fun S hS => T.kid hS
  have hin : ∀ z, z ∈ Tree.idsL (h.tree p).kids ↔ ∃ y ∈ h.kids p, Below h y z := fun z => by rw [mem_idsL_iff RL, hk]
  have hx : x ∈ Tree.idsL (h.tree p).kids := (hin x).2 (by
    rcases below_kid_cases (hb.step hxq) with e | h
    · exact absurd e hpx
    · exact h)
  obtain ⟨k0, e0⟩ := delete_walk (linkEnv fe) force (n + 1) hr e M (k3 x fun e => hqx e.symm) (fun ⟨c, hc, hcb⟩ => C.forest.irrefl hc hcb) (h.tree p).kids p 0 RL hx
    (fun a haa hne => ho a (by obtain ⟨y, hy, hyb⟩ := (hin a).1 haa; exact Below.head hy hyb) hne) (by simpa using hk)
  refine ⟨k0 + 1, fun k hk' => ?_⟩
  obtain ⟨j, rfl⟩ : ∃ j, k = k0 + (j + 1) := ⟨k - k0 - 1, by omega⟩
  simp only [callLoadLinksDel, hpr, Bool.false_eq_true, if_false]
  rw [e0]
  rfl

/-- a root 0 with the children 1, an item with the child 2, a broken link root 3, and an item 4 -/
def oneBroken : Heap := run ms0 Heap.empty [.new (.str "R") .noValue [] 0#6, .new (.str "A") .noValue [] 0#6, .append 0 (.item 1), .new (.str "B") .noValue [] 0#6, .append 1 (.item 2),
  .newLink (.str "L") .noValue [] 0#6 none [.int 9], .append 0 (.item 3), .new (.str "M") .noValue [] 0#6, .append 0 (.item 4)]
example : ∃ h', Delivers (fun k => callLoadLinksDel (linkEnv noFiles) false 201 k oneBroken 0) (h', .ok false) ∧ h'.kids 0 = [1, 4] ∧ h'.par 3 = none := by
  have T : Tidy ms0 oneBroken := tidy_run _ .empty (by decide +kernel)
  have C := T.reach.core
  have e1 : (oneBroken.node 3).link = some { path := [.int 9] } := by decide +kernel
  have B : BrokenLink noFiles oneBroken 3 { path := [.int 9] } := by
    refine ⟨e1, .inl ⟨Or.inl rfl, fun s hs => ?_⟩⟩
    have := ((C76_find noFiles C.wf e1 (Or.inl rfl)).2 s).2 hs
    have e2 : (match (getTarget noFiles oneBroken 3).2 with | .ok _ => false | .error _ => true) = true := by decide +kernel
    rw [this] at e2
    cases e2
  obtain ⟨h', d, k, q, -⟩ := C76_delete_only_partial T.reach noFiles false 199 (p := 0) (q := 0) (x := 3) (m := 1) .refl (by decide +kernel) (by decide +kernel) (fun y hy hne => by
    have hm : y ∈ (oneBroken.tree 0).ids := by have := below_iff_ids (tree_rep C.wf C.forest 0) y; rw [tree_id] at this; exact this.1 hy
    have : ∀ y ∈ (oneBroken.tree 0).ids, y ≠ 3 → oneBroken.isLinkRoot y = false := by decide +kernel
    exact this y hm hne) (by decide +kernel) B (.inr rfl)
  exact ⟨h', d, by rw [k]; decide +kernel, q⟩

/-- what a call has delivered, and the children of some items after it -/
def seen (o : Option (Res Bool)) (l : List Id) : Option (Option Bool × List (List Id)) := o.map fun r => (r.2.toOption, l.map r.1.kids)

theorem seen_some {o : Option (Res Bool)} {l : List Id} {b : Option Bool} {v : List (List Id)} (e : seen o l = some (b, v)) : ∃ r, o = some r ∧ r.2.toOption = b ∧ l.map r.1.kids = v := by
  cases o with
  | none => simp [seen] at e
  | some r =>
    simp only [seen, Option.map_some, Option.some.injEq, Prod.mk.injEq] at e
    exact ⟨r, rfl, e.1, e.2⟩

/-- C76, negation: a link root right behind a removed one is skipped.  Two broken link roots 3 and 4 beside each other: the call removes 3 only and delivers False; 4 stays in the tree.  A broken link root 3 before a
good one 4, referring to the item 1 (with the child 2): 3 is removed, 4 is not loaded, and the call delivers False. -/
theorem C76_delete_next_wrong : Tidy ms0 (twoLinks [.int 9] [.int 9]) ∧ Tidy ms0 (twoLinks [.int 9] [.int 0]) ∧
    (∃ h', Delivers (fun k => callLoadLinksDel (linkEnv noFiles) false 201 k (twoLinks [.int 9] [.int 9]) 0) (h', .ok false) ∧ h'.kids 0 = [1, 4]) ∧
    (∃ h', Delivers (fun k => callLoadLinksDel (linkEnv noFiles) false 201 k (twoLinks [.int 9] [.int 0]) 0) (h', .ok false) ∧ h'.kids 0 = [1, 4] ∧ h'.kids 4 = []) ∧
    (∃ h', loadLinksDel (linkEnv noFiles) false 201 (twoLinks [.int 9] [.int 0]) 4 = (h', .ok true) ∧ h'.kids 4 = [5]) := by
  refine ⟨twoLinks_tidy _ (.inl rfl), twoLinks_tidy _ (.inr rfl), ?_, ?_, ?_⟩
  · obtain ⟨⟨h', r⟩, e, hb, hk⟩ := seen_some (o := callLoadLinksDel (linkEnv noFiles) false 201 30 (twoLinks [.int 9] [.int 9]) 0) (l := [0]) (b := some false) (v := [[1, 4]]) (by decide +kernel)
    cases r with
    | error e => cases hb
    | ok b => cases hb; exact ⟨h', delivers_of _ _ _ 30 _ _ e, by simpa using hk⟩
  · obtain ⟨⟨h', r⟩, e, hb, hk⟩ := seen_some (o := callLoadLinksDel (linkEnv noFiles) false 201 30 (twoLinks [.int 9] [.int 0]) 0) (l := [0, 4]) (b := some false) (v := [[1, 4], []]) (by decide +kernel)
    cases r with
    | error e => cases hb
    | ok b => cases hb; exact ⟨h', delivers_of _ _ _ 30 _ _ e, by simpa using hk⟩
  · obtain ⟨⟨h', r⟩, e, hb, hk⟩ := seen_some (o := some (loadLinksDel (linkEnv noFiles) false 201 (twoLinks [.int 9] [.int 0]) 4)) (l := [4]) (b := some true) (v := [[5]]) (by decide +kernel)
    cases r with
    | error e => cases hb
    | ok b => cases hb; exact ⟨h', Option.some.inj e, by simpa using hk⟩

/-- a root 0 with the children 1, a link root that refers to 2, and 2 with the children 3, a link root 4 with the given path, and 5 -/
def nestedLinks (path : List Tag) : Heap := run ms0 Heap.empty [.new (.str "R") .noValue [] 0#6, .newLink (.str "L") .noValue [] 0#6 none [.int 1], .append 0 (.item 1), .new (.str "S") .noValue [] 0#6,
  .append 0 (.item 2), .new (.str "A") .noValue [] 0#6, .append 2 (.item 3), .newLink (.str "M") .noValue [] 0#6 none path, .append 2 (.item 4), .new (.str "B") .noValue [] 0#6, .append 2 (.item 5)]

/-- C76, negation: a broken link root among the children of a source.  The call on the link root 1 takes the broken link root 4 out of the source 2 and then fails, and 1 is left with a part of the children: the mirror of
3 but none of 5. -/
theorem C76_delete_nested_wrong : Tidy ms0 (nestedLinks [.int 9]) ∧ (nestedLinks [.int 9]).kids 2 = [3, 4, 5] ∧
    ∃ h', loadLinksDel (linkEnv noFiles) false 201 (nestedLinks [.int 9]) 1 = (h', .error .type) ∧ h'.kids 2 = [3, 5] ∧ h'.kids 1 = [6] ∧ h'.tag 6 = .str "A" := by
  refine ⟨tidy_run _ .empty (by decide +kernel), by decide +kernel, _, Prod.ext rfl ?_, by decide +kernel, by decide +kernel, by decide +kernel⟩
  have : ∃ e, (loadLinksDel (linkEnv noFiles) false 201 (nestedLinks [.int 9]) 1).2 = .error e ∧ e = .type := by
    have h1 : (match (loadLinksDel (linkEnv noFiles) false 201 (nestedLinks [.int 9]) 1).2 with | .ok _ => false | .error e => decide (e = .type)) = true := by decide +kernel
    generalize (loadLinksDel (linkEnv noFiles) false 201 (nestedLinks [.int 9]) 1).2 = r at h1
    cases r with
    | ok _ => cases h1
    | error e => exact ⟨e, rfl, of_decide_eq_true h1⟩
  obtain ⟨e, h1, rfl⟩ := this
  exact h1

end ITree
