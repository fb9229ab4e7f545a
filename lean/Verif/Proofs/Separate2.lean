import Verif.Proofs.Separate
/-
Separation: the mutators.
-/
namespace ITree

section
variable {N : Id → Prop} {Q : Prop} {h h' : Heap}

/-- the argument is no item of `N` -/
def Arg.Out (N : Id → Prop) (a : Arg) : Prop := ∀ i, a = .item i → ¬ N i
/-- the result is no item of `N` -/
def ResOut (N : Id → Prop) (r : Except Err Id) : Prop := ∀ x, r = .ok x → ¬ N x

theorem NI.appendItem (S : Sep N Q h) {p x : Id} (hp : ¬ N p) (hx : ¬ N x) : NI N Q h (ITree.appendItem h p x) := by
  unfold ITree.appendItem
  simp only
  split
  · have A : NI N Q h (h.modify p fun n => { n with items := [x], fams := some [(h.tag x, [x])], stale := none }) :=
      NI.modify S hp ⟨out_single hx, (S.out p hp).parent, (fun F e => by cases e; simpa [FOut] using hx), (fun F e => by cases e), (S.out p hp).cover⟩
    exact A.trans (NI.setParent A.sep hx fun q e => by cases e; exact hp)
  · have A := NI.setItems S hp (out_append (S.kids hp) (out_single hx))
    have B := NI.setFams A.sep hp (FOut.append (S.bound hp) (t := h.tag x) hx)
    exact (A.trans B).trans (NI.setParent B.sep hx fun q e => by cases e; exact hp)

theorem NI.appendItemLeft (S : Sep N Q h) {p x : Id} (hp : ¬ N p) (hx : ¬ N x) : NI N Q h (ITree.appendItemLeft h p x) := by
  unfold ITree.appendItemLeft
  simp only
  have A := NI.setItems S hp (out_cons hx (S.kids hp))
  split
  · have B := NI.setFams A.sep hp ((S.bound hp).set (t := h.tag x) (out_single hx))
    exact (A.trans B).trans (NI.setParent B.sep hx fun q e => by cases e; exact hp)
  · next l hl =>
    have B := NI.setFams A.sep hp ((S.bound hp).set (t := h.tag x) (out_cons hx ((S.bound hp).get hl)))
    exact (A.trans B).trans (NI.setParent B.sep hx fun q e => by cases e; exact hp)

theorem nodeOut_plain {t : Tag} {v : Val} {f : Flags} : NodeOut N Q { tag := t, value := v, flags := f } :=
  ⟨by simp, by simp, by simp, by simp, by simp⟩

theorem NI.prepItem (S : Sep N Q h) {a : Arg} (ha : a.Out N) : NI N Q h (ITree.prepItem h a).1 ∧ ResOut N (ITree.prepItem h a).2 := by
  unfold ITree.prepItem
  split
  · split
    · exact ⟨.refl S, fun x e => by cases e⟩
    · exact ⟨.refl S, fun x e => by cases e; exact ha _ rfl⟩
  · have := NI.alloc S (N := N) (n := { tag := .noTag, value := ‹Val› }) nodeOut_plain
    exact ⟨this.1, fun x e => by cases e; exact this.2⟩

theorem NI.append (S : Sep N Q h) {p : Id} {a : Arg} (hp : ¬ N p) (ha : a.Out N) : NI N Q h (ITree.append h p a).1 ∧ ResOut N (ITree.append h p a).2 := by
  unfold ITree.append
  split
  · exact ⟨.refl S, fun x e => by cases e⟩
  · have A := NI.prepItem S ha
    simp only
    split
    · exact ⟨A.1, fun x e => by cases e⟩
    · next x hx => exact ⟨A.1.trans (.appendItem A.1.sep hp (A.2 x hx)), fun y e => by cases e; exact A.2 _ hx⟩

theorem NI.appendLeft (S : Sep N Q h) {p : Id} {a : Arg} (hp : ¬ N p) (ha : a.Out N) : NI N Q h (ITree.appendLeft h p a).1 := by
  unfold ITree.appendLeft
  split
  · exact .refl S
  · have A := NI.prepItem S ha
    simp only
    split
    · exact A.1
    · next x hx =>
      split
      · exact A.1.trans (.appendItem A.1.sep hp (A.2 x hx))
      · exact A.1.trans (.appendItemLeft A.1.sep hp (A.2 x hx))

theorem NI.insertAt (S : Sep N Q h) {p x : Id} {k : Int} (hp : ¬ N p) (hx : ¬ N x) : NI N Q h (ITree.insertAt h p x k).1 := by
  unfold ITree.insertAt
  split
  · exact .appendItemLeft S hp hx
  · have A := NI.setItems S hp (out_insert (k := k) (S.kids hp) hx)
    simp only
    split
    · have B := NI.setFams A.sep hp ((S.bound hp).set (t := h.tag x) (out_single hx))
      exact (A.trans B).trans (NI.setParent B.sep hx fun q e => by cases e; exact hp)
    · next fam hf =>
      have hfam := (S.bound hp).get hf
      have B := NI.famInsIdx A.sep (k := k) hfam
      split
      · exact A.trans B
      · next i hi =>
        have C := NI.setFams B.sep hp ((S.bound hp).set (t := h.tag x) (out_insert (k := (i : Int)) hfam hx))
        exact ((A.trans B).trans C).trans (NI.setParent C.sep hx fun q e => by cases e; exact hp)

theorem NI.insertPos (S : Sep N Q h) {p : Id} {tg : Target} (hp : ¬ N p) : NI N Q h (ITree.insertPos h p tg).1 := by
  unfold ITree.insertPos
  split
  · exact .refl S
  · exact .refl S
  · split
    · exact .refl S
    · exact .refl S
    · next y hy =>
      have A := NI.idx S (out_getItem S hp hy y (by simp [GetRes.all]))
      simp only
      split <;> exact A

theorem NI.insert (S : Sep N Q h) {p : Id} {tg : Option Target} {a : Arg} (hp : ¬ N p) (ha : a.Out N) : NI N Q h (ITree.insert h p tg a).1 := by
  unfold ITree.insert
  split
  · exact (NI.append S hp ha).1
  · split
    · exact .refl S
    · have A := NI.prepItem S ha
      simp only
      split
      · exact A.1
      · next x hx =>
        split
        · exact A.1.trans (.appendItem A.1.sep hp (A.2 x hx))
        · have B := NI.insertPos A.1.sep (tg := ‹Target›) hp
          split
          · exact A.1.trans B
          · exact (A.1.trans B).trans (.insertAt B.sep hp (A.2 x hx))

/-! ### copies and extend -/

theorem nodeOut_copy (t : Tree) : NodeOut N Q (copyNode t) := by
  refine ⟨by simp [copyNode], by simp [copyNode], by simp [copyNode], by simp [copyNode], fun l y hl hy => ?_⟩
  simp only [copyNode, copyLink] at hl
  split at hl
  · simp only [Option.map_eq_some_iff] at hl
    obtain ⟨a, _, rfl⟩ := hl
    simp at hy
  · cases hl

mutual
theorem NI.buildKids : ∀ (ts : List Tree) {h : Heap} {p : Id}, Sep N Q h → ¬ N p → NI N Q h (ITree.buildKids h p ts)
  | [], h, p, S, hp => by simpa [ITree.buildKids] using NI.refl S
  | k :: rest, h, p, S, hp => by
    have A := NI.buildOne k S hp
    simp only [ITree.buildKids]
    exact A.trans (NI.buildKids rest A.sep hp)
theorem NI.buildOne : ∀ (t : Tree) {h : Heap} {p : Id}, Sep N Q h → ¬ N p → NI N Q h (ITree.buildOne h p t)
  | .node i t v f l ks, h, p, S, hp => by
    have A := NI.alloc S (nodeOut_copy (N := N) (Q := Q) (.node i t v f l ks))
    have B := NI.appendItem A.1.sep hp A.2
    simp only [ITree.buildOne]
    exact (A.1.trans B).trans (NI.buildKids ks B.sep A.2)
end

theorem NI.copyItem (S : Sep N Q h) (x : Id) : NI N Q h (ITree.copyItem h x).1 ∧ ¬ N (ITree.copyItem h x).2 := by
  have A := NI.alloc S (nodeOut_copy (N := N) (Q := Q) (h.tree x))
  unfold ITree.copyItem build
  exact ⟨A.1.trans (NI.buildKids _ A.1.sep A.2), A.2⟩

theorem NI.extendOne (S : Sep N Q h) {p : Id} {idx : Nat} {a : Arg} (hp : ¬ N p) (ha : a.Out N) : NI N Q h (ITree.extendOne h p idx a) := by
  have key : ∀ {h1 : Heap} {x : Id}, NI N Q h h1 → ¬ N x → NI N Q h
      ((((h1.setFams p (famAppend ((h1.node p).fams.getD []) (h1.tag x) x).1).setParent x
        (some ⟨p, idx, (famAppend ((h1.node p).fams.getD []) (h1.tag x) x).2, false⟩)).setItems p
        ((((h1.setFams p (famAppend ((h1.node p).fams.getD []) (h1.tag x) x).1).setParent x
        (some ⟨p, idx, (famAppend ((h1.node p).fams.getD []) (h1.tag x) x).2, false⟩))).kids p ++ [x]))) := by
    intro h1 x A hx
    have B := NI.setFams A.sep hp ((A.sep.fams hp).append (t := h1.tag x) hx)
    have C := NI.setParent B.sep (x := x) (r := some ⟨p, idx, (famAppend ((h1.node p).fams.getD []) (h1.tag x) x).2, false⟩) hx
      (fun q e => by cases e; exact hp)
    exact ((A.trans B).trans C).trans (NI.setItems C.sep hp (out_append (C.sep.kids hp) (out_single hx)))
  unfold ITree.extendOne
  simp only
  cases a with
  | item x =>
    by_cases e : (h.node x).parent.isSome
    · simp only [e, if_true]
      have A := NI.copyItem S x
      exact key A.1 A.2
    · simp only [if_neg e]
      exact key (.refl S) (ha x rfl)
  | val v =>
    have A := NI.alloc S (N := N) (n := { tag := .noTag, value := v }) nodeOut_plain
    exact key A.1 A.2

theorem NI.extendLoop {p : Id} (hp : ¬ N p) : ∀ (as : List Arg) (idx : Nat) {h : Heap}, Sep N Q h → (∀ a ∈ as, a.Out N) →
    NI N Q h (ITree.extendLoop h p idx as)
  | [], idx, h, S, ha => by simpa [ITree.extendLoop] using NI.refl S
  | a :: as, idx, h, S, ha => by
    have A := NI.extendOne S (idx := idx) hp (ha a (by simp))
    simp only [ITree.extendLoop]
    exact A.trans (NI.extendLoop hp as _ A.sep fun b hb => ha b (by simp [hb]))

theorem NI.iterExtend (S : Sep N Q h) {p : Id} {as : List Arg} (hp : ¬ N p) (ha : ∀ a ∈ as, a.Out N) : NI N Q h (ITree.iterExtend h p as) := by
  unfold ITree.iterExtend
  simp only
  split
  · have A : NI N Q h (h.modify p fun n => { n with fams := some [], stale := none }) :=
      NI.modify S hp ⟨(S.out p hp).items, (S.out p hp).parent, (fun F e => by cases e; exact .nil), (fun F e => by cases e), (S.out p hp).cover⟩
    exact A.trans (.extendLoop hp as _ A.sep ha)
  · exact .extendLoop hp as _ S ha

theorem NI.extend (S : Sep N Q h) {p : Id} {as : List Arg} (hp : ¬ N p) (ha : ∀ a ∈ as, a.Out N) : NI N Q h (ITree.extend h p as).1 := by
  unfold ITree.extend
  split
  · exact .refl S
  · exact .iterExtend S hp ha

theorem out_items {l : List Id} (hl : ∀ c ∈ l, ¬ N c) : ∀ a ∈ l.map Arg.item, a.Out N := fun a ha i e => by
  simp only [List.mem_map] at ha
  obtain ⟨j, hj, rfl⟩ := ha
  cases e; exact hl _ hj

theorem NI.extendTree (S : Sep N Q h) {p u : Id} (hp : ¬ N p) (hu : ¬ N u) : NI N Q h (ITree.extendTree h p u).1 := by
  unfold ITree.extendTree
  simp only
  split
  · exact .refl S
  · split
    · have A := NI.copyItem S u
      exact A.1.trans (.iterExtend A.1.sep hp (out_items (A.1.sep.kids A.2)))
    · exact .iterExtend S hp (out_items (S.kids hu))

theorem NI.orphan : ∀ (l : List Id) {h : Heap}, Sep N Q h → (∀ c ∈ l, ¬ N c) → NI N Q h (ITree.orphan h l)
  | [], h, S, hl => by simpa [ITree.orphan] using NI.refl S
  | x :: xs, h, S, hl => by
    have A := NI.setParent S (x := x) (r := none) (hl x (by simp)) (fun q e => by cases e)
    simp only [ITree.orphan]
    exact A.trans (NI.orphan xs A.sep fun c hc => hl c (by simp [hc]))

theorem NI.emptied (S : Sep N Q h) {p : Id} (hp : ¬ N p) : NI N Q h (h.modify p fun n => { n with items := [], fams := some [] }) :=
  NI.modify S hp ⟨by simp, (S.out p hp).parent, (fun F e => by cases e; exact .nil), (S.out p hp).stale, (S.out p hp).cover⟩

theorem NI.extendLeft (S : Sep N Q h) {p : Id} {as : List Arg} (hp : ¬ N p) (ha : ∀ a ∈ as, a.Out N) : NI N Q h (ITree.extendLeft h p as).1 := by
  unfold ITree.extendLeft
  split
  · exact .refl S
  · have A := NI.orphan _ S (S.kids hp)
    have B := NI.emptied A.sep hp
    refine (A.trans B).trans (.iterExtend B.sep hp ?_)
    intro a hm
    rcases List.mem_append.1 hm with hm | hm
    · exact ha a hm
    · exact out_items (S.kids hp) a hm

/-! ### delete -/

theorem NI.dropFromFamily (S : Sep N Q h) {p x : Id} (hp : ¬ N p) (hx : ¬ N x) : NI N Q h (ITree.dropFromFamily h p x).1 ∧ ResOut N (ITree.dropFromFamily h p x).2 := by
  unfold ITree.dropFromFamily
  simp only
  split
  · exact ⟨.refl S, fun x e => by cases e⟩
  · next fam hf =>
    have hfam := (S.bound hp).get hf
    split
    · have A := NI.setFams S hp ((S.bound hp).del (t := h.tag x))
      exact ⟨A.trans (NI.setParent A.sep hx (fun q e => by cases e)), fun y e => by cases e; exact hx⟩
    · split
      · exact ⟨.refl S, fun x e => by cases e⟩
      · split
        · exact ⟨.refl S, fun x e => by cases e⟩
        · next i _ =>
          have A := NI.setFams S hp ((S.bound hp).set (t := h.tag x) (out_del (k := i) hfam))
          exact ⟨A.trans (NI.setParent A.sep hx (fun q e => by cases e)), fun y e => by cases e; exact hx⟩

theorem NI.uncover (S : Sep N Q h) {p x y : Id} {k : Int} (hp : ¬ N p) (hx : ¬ N x) (hy : ¬ N y) : NI N Q h (ITree.uncover h p x y k).1 ∧ ResOut N (ITree.uncover h p x y k).2 := by
  unfold ITree.uncover
  have A := NI.tagIdx S hx
  simp only
  split
  · exact ⟨A, fun x e => by cases e⟩
  · exact ⟨A, fun x e => by cases e⟩
  · exact ⟨A, fun x e => by cases e⟩
  · next t i _ =>
    have B := NI.setItems A.sep hp (out_insert (k := k) (A.sep.kids hp) hy)
    have C := NI.setFams B.sep hp ((B.sep.bound hp).set (t := t) (out_set (k := i) ((B.sep.bound hp).getD (t := t)) hy))
    have D := NI.setParent C.sep (x := y) (r := some ⟨p, k, i, false⟩) hy (fun q e => by cases e; exact hp)
    exact ⟨(((A.trans B).trans C).trans D).trans (NI.setParent D.sep hx (fun q e => by cases e)), fun z e => by cases e; exact hx⟩

theorem NI.delInt (S : Sep N Q h) {p : Id} {k : Int} (hp : ¬ N p) : NI N Q h (ITree.delInt h p k).1 ∧ ResOut N (ITree.delInt h p k).2 := by
  unfold ITree.delInt
  split
  · exact ⟨.refl S, fun x e => by cases e⟩
  · split
    · exact ⟨.refl S, fun x e => by cases e⟩
    · split
      · exact ⟨.refl S, fun x e => by cases e⟩
      · next pos _ =>
        split
        · exact ⟨.refl S, fun x e => by cases e⟩
        · next x hx =>
          have hx := S.kids hp x (List.mem_of_getElem? hx)
          have A := NI.setItems S hp (l := (h.kids p).eraseIdx pos) (fun c hc => S.kids hp c (List.mem_of_mem_eraseIdx hc))
          split
          · exact ⟨.refl S, fun x e => by cases e⟩
          · simp only
            split
            · next y hy =>
              have hy : ¬ N y := by
                unfold coverOf at hy
                split at hy
                · next l hl => exact (S.out x hx).cover l y hl hy
                · cases hy
              split
              · exact ⟨A, fun x e => by cases e⟩
              · have B := NI.uncover A.sep (k := k) hp hx hy
                exact ⟨A.trans B.1, B.2⟩
            · have B := NI.dropFromFamily A.sep hp hx
              exact ⟨A.trans B.1, B.2⟩

theorem NI.delByItem (S : Sep N Q h) {p x : Id} (hp : ¬ N p) (hx : ¬ N x) : NI N Q h (ITree.delByItem h p x).1 ∧ ResOut N (ITree.delByItem h p x).2 := by
  unfold ITree.delByItem
  have A := NI.idx S hx
  simp only
  split
  · exact ⟨A, fun x e => by cases e⟩
  · exact ⟨A, fun x e => by cases e⟩
  · next i _ =>
    have B := NI.delInt A.sep (k := i) hp
    exact ⟨A.trans B.1, B.2⟩

theorem NI.delMany {p : Id} (hp : ¬ N p) : ∀ (l : List Id) {h : Heap}, Sep N Q h → (∀ c ∈ l, ¬ N c) → NI N Q h (ITree.delMany h p l).1
  | [], h, S, hl => by simpa [ITree.delMany] using NI.refl S
  | x :: xs, h, S, hl => by
    have A := (NI.delByItem S hp (hl x (by simp))).1
    simp only [ITree.delMany]
    split
    · exact A
    · have B := NI.delMany hp xs A.sep fun c hc => hl c (by simp [hc])
      split <;> exact A.trans B

theorem NI.delSlice (S : Sep N Q h) {p : Id} {s : PySlice} (hp : ¬ N p) : NI N Q h (ITree.delSlice h p s).1 := by
  unfold ITree.delSlice
  split
  · exact .refl S
  · split
    · exact .refl S
    · split
      · exact .refl S
      · next ix _ =>
        have hg : ∀ c ∈ ix.filterMap (fun i => (h.kids p)[i.toNat]?), ¬ N c := fun c hc => by
          simp only [List.mem_filterMap] at hc
          obtain ⟨i, _, e⟩ := hc
          exact S.kids hp c (List.mem_of_getElem? e)
        simp only
        generalize ix.filterMap (fun i => (h.kids p)[i.toNat]?) = gone at hg ⊢
        split
        · exact .refl S
        · have A := NI.setItems S hp (l := (h.kids p).filter fun x => !gone.contains x) (fun c hc => S.kids hp c (List.mem_of_mem_filter hc))
          generalize h.setItems p ((h.kids p).filter fun x => !gone.contains x) = h1 at A ⊢
          split
          · split
            · split
              · exact A
              · next x xs _ =>
                have hx := hg x (by simp)
                have P : NI N Q h1 (h1.setParent x none) := NI.setParent A.sep hx (fun q e => by cases e)
                split
                · exact A
                · next fam hf =>
                  split
                  · exact A.trans P
                  · split
                    · exact A
                    · split
                      · exact A
                      · next i _ =>
                        have B := NI.setFams A.sep hp ((A.sep.bound hp).set (t := h1.tag x) (out_del (k := i) ((A.sep.bound hp).get hf)))
                        exact (A.trans B).trans (NI.setParent B.sep hx (fun q e => by cases e))
            · exact A
          · exact A

theorem NI.delItem (S : Sep N Q h) {p : Id} {tg : Target} (hp : ¬ N p) : NI N Q h (ITree.delItem h p tg).1 := by
  unfold ITree.delItem
  split
  · exact (NI.delInt S hp).1
  · exact .delSlice S hp
  · split
    · exact .refl S
    · split
      · exact .refl S
      · split
        · exact .refl S
        · next x hx => exact (NI.delByItem S hp (out_getItem S hp hx x (by simp [GetRes.all]))).1
        · next l hl => exact NI.delMany hp l S (out_getItem S hp hl)

theorem NI.remove (S : Sep N Q h) {p x : Id} (hp : ¬ N p) (hx : ¬ N x) : NI N Q h (ITree.remove h p x).1 := by
  unfold ITree.remove
  split
  · exact (NI.delByItem S hp hx).1
  · exact .refl S

end

end ITree
