import Verif.Proofs.Separate2
import Verif.Spec.Mention
import Verif.Proofs.History
import Verif.Proofs.Paths2
/-
Separation: the remaining calls and histories.
-/
namespace ITree

section
variable {N : Id → Prop} {Q : Prop} {h h' : Heap}

theorem NI.ite {α : Type} {b : Bool} {A B : Res α} (hP : NI N Q h A.1) (hQ : NI N Q h B.1) : NI N Q h (if b then A else B).1 := by
  cases b <;> simpa

theorem NI.prepSet (S : Sep N Q h) {p : Id} {a : Arg} (ha : a.Out N) : NI N Q h (ITree.prepSet h p a).1 ∧ ResOut N (ITree.prepSet h p a).2 := by
  unfold ITree.prepSet
  split
  · split
    · exact ⟨.refl S, fun x e => by cases e; exact ha _ rfl⟩
    · split
      · have A := NI.copyItem S ‹Id›
        exact ⟨A.1, fun x e => by cases e; exact A.2⟩
      · exact ⟨.refl S, fun x e => by cases e⟩
  · have := NI.alloc S (N := N) (n := { tag := .noTag, value := ‹Val› }) nodeOut_plain
    exact ⟨this.1, fun x e => by cases e; exact this.2⟩

theorem NI.replaceChild (S : Sep N Q h) {p old x : Id} (hp : ¬ N p) (ho : ¬ N old) (hx : ¬ N x) : NI N Q h (ITree.replaceChild h p old x).1 := by
  unfold ITree.replaceChild
  have A := NI.idx S ho
  simp only
  split
  · exact A
  · exact A
  · next k _ =>
    have B := A.trans (NI.tagIdx A.sep ho)
    generalize (((h.idx old).1).tagIdx old) = r2 at B ⊢
    obtain ⟨h0, e⟩ := r2
    dsimp only at B ⊢
    split
    · exact B
    · exact B
    · exact B
    · next oT oI =>
      have C := B.trans (NI.setParent B.sep (x := old) (r := none) ho (fun q e => by cases e))
      generalize h0.setParent old none = h1 at C ⊢
      have D := C.trans (NI.setItems C.sep hp (out_set (k := k) (C.sep.kids hp) hx))
      generalize h1.setItems p (pySet (h1.kids p) k x) = h2 at D ⊢
      have BF := D.sep.bound hp
      split
      · have E := D.trans (NI.setFams D.sep hp (BF.set (t := h2.tag x) (out_set (k := oI) (BF.getD (t := h2.tag x)) hx)))
        exact E.trans (NI.setParent E.sep hx (fun q e => by cases e; exact hp))
      · have BF1 : FOut N (((h2.boundFams p).getD []).set oT (pyDel ((((h2.boundFams p).getD []).get? oT).getD []) oI)) :=
          BF.set (out_del BF.getD)
        generalize (((h2.boundFams p).getD []).set oT (pyDel ((((h2.boundFams p).getD []).get? oT).getD []) oI)) = F1 at BF1 ⊢
        have E := D.trans (NI.setFams D.sep hp BF1)
        generalize h2.setFams p F1 = h3 at E ⊢
        split
        · have G := E.trans (NI.setFams E.sep hp (BF1.set (t := h2.tag x) (out_single hx)))
          exact G.trans (NI.setParent G.sep hx (fun q e => by cases e; exact hp))
        · next fam hf =>
          have hfam := BF1.get hf
          have G := E.trans (NI.famInsIdx E.sep (k := k) hfam)
          generalize ITree.famInsIdx h3 fam k = q at G ⊢
          have one : NI N Q h ((q.1.setFams p (F1.set (h2.tag x) [x])).setParent x (some ⟨p, k, 0, false⟩)) := by
            have K := G.trans (NI.setFams G.sep hp (BF1.set (t := h2.tag x) (out_single hx)))
            exact K.trans (NI.setParent K.sep hx (fun q e => by cases e; exact hp))
          split
          · next i _ =>
            have K := G.trans (NI.setFams G.sep hp (BF1.set (t := h2.tag x) (out_insert (k := (i : Int)) hfam hx)))
            exact K.trans (NI.setParent K.sep hx (fun q e => by cases e; exact hp))
          · exact one
          · exact one
          · exact G

theorem NI.dropItems {p : Id} (hp : ¬ N p) : ∀ (l : List Id) {h : Heap}, Sep N Q h → (∀ c ∈ l, ¬ N c) → NI N Q h (ITree.dropItems h p l).1
  | [], h, S, hl => by simpa [ITree.dropItems] using NI.refl S
  | x :: xs, h, S, hl => by
    have A := NI.idx S (hl x (by simp))
    simp only [ITree.dropItems]
    split
    · exact A
    · exact A
    · next i _ =>
      have B := A.trans (NI.setItems A.sep hp (out_del (k := i) (A.sep.kids hp)))
      exact B.trans (NI.dropItems hp xs B.sep fun c hc => hl c (by simp [hc]))

theorem NI.replaceFamily (S : Sep N Q h) {p x : Id} (hp : ¬ N p) (hx : ¬ N x) : NI N Q h (ITree.replaceFamily h p x).1 := by
  unfold ITree.replaceFamily
  simp only
  split
  · exact (NI.append S hp (fun i e => by cases e; exact hx)).1
  · next fam hf =>
    have hfam := (S.bound hp).get hf
    split
    · exact .refl S
    · split
      · exact .refl S
      · next f rest _ =>
        have A := NI.idx S (hfam f (by simp))
        split
        · exact A
        · exact A
        · next k _ =>
          have B := A.trans (NI.dropItems hp rest.reverse A.sep fun c hc => hfam c (by simp at hc; simp [hc]))
          generalize ITree.dropItems (h.idx f).1 p rest.reverse = q at B ⊢
          split
          · exact B
          · have C := B.trans (NI.setItems B.sep hp (out_set (k := k) (B.sep.kids hp) hx))
            generalize q.1.setItems p (pySet (q.1.kids p) k x) = h1 at C ⊢
            have D := C.trans (NI.setFams C.sep hp ((C.sep.fams hp).set (t := h.tag x) (out_single hx)))
            exact D.trans (NI.setParent D.sep hx (fun q e => by cases e; exact hp))

theorem NI.setItem (S : Sep N Q h) {p : Id} {tg : Target} {a : Arg} (hp : ¬ N p) (ha : a.Out N) : NI N Q h (ITree.setItem h p tg a).1 := by
  unfold ITree.setItem
  split
  · exact .refl S
  · split
    · exact .refl S
    · next old hold =>
      apply NI.ite
      · exact .refl S
      · have A := NI.prepSet S (p := p) ha
        simp only
        split
        · exact A.1
        · next x hx =>
          have hx := A.2 x hx
          have A := A.1
          generalize (ITree.prepSet h p a).1 = h1 at A ⊢
          have ax : Arg.Out N (.item x) := fun i e => by cases e; exact hx
          split
          · split
            · have B := A.trans (NI.delItem A.sep (tg := Target.ofTag (h1.tag x)) hp)
              split
              · exact B
              · exact B.trans (NI.append B.sep hp ax).1
            · exact A.trans (NI.append A.sep hp ax).1
          · split
            · exact A.trans (.replaceFamily A.sep hp hx)
            · split
              · exact A
              · next o => exact A.trans (.replaceChild A.sep hp (out_getItem S hp hold o (by simp [GetRes.all])) hx)

theorem NI.move (S : Sep N Q h) {x : Id} {tg : Option Target} (hx : ¬ N x) : NI N Q h (ITree.move h x tg).1 := by
  unfold ITree.move
  split
  · exact .refl S
  · next r hr =>
    have hp := (S.out x hx).parent r hr
    simp only
    apply NI.ite
    · exact .refl S
    · split
      · have A := NI.delByItem S hp hx
        split
        · exact A.1
        · next y hy => exact A.1.trans (NI.append A.1.sep hp (fun i e => by cases e; exact A.2 _ hy)).1
      · have A := NI.delByItem S hp hx
        split
        · exact A.1
        · next y hy => exact A.1.trans (NI.insert A.1.sep hp (fun i e => by cases e; exact A.2 _ hy))
      · split
        · exact .refl S
        · exact .refl S
        · next y hy =>
          have B := NI.idx S (out_getItem S hp hy y (by simp [GetRes.all]))
          split
          · exact B
          · exact B
          · have A := NI.delByItem B.sep hp hx
            split
            · exact B.trans A.1
            · next z hz => exact (B.trans A.1).trans (NI.insert A.1.sep hp (fun i e => by cases e; exact A.2 _ hz))

theorem NI.setTag (S : Sep N Q h) {x : Id} {g : Tag} (hx : ¬ N x) : NI N Q h (h.modify x fun n => { n with tag := g }) :=
  NI.modify S hx ⟨(S.out x hx).items, (S.out x hx).parent, (S.out x hx).fams, (S.out x hx).stale, (S.out x hx).cover⟩
theorem NI.setFlags (S : Sep N Q h) {x : Id} {g : Flags → Flags} (hx : ¬ N x) : NI N Q h (h.modify x fun n => { n with flags := g n.flags }) :=
  NI.modify S hx ⟨(S.out x hx).items, (S.out x hx).parent, (S.out x hx).fams, (S.out x hx).stale, (S.out x hx).cover⟩
theorem NI.setVal (S : Sep N Q h) {x : Id} {v : Val} (hx : ¬ N x) : NI N Q h (h.setVal x v) :=
  NI.modify S hx ⟨(S.out x hx).items, (S.out x hx).parent, (S.out x hx).fams, (S.out x hx).stale, (S.out x hx).cover⟩

theorem NI.rename (S : Sep N Q h) {x : Id} {g : Tag} (hx : ¬ N x) : NI N Q h (ITree.rename h x g).1 := by
  unfold ITree.rename
  split
  · exact .setTag S hx
  · next r hr =>
    have hp := (S.out x hx).parent r hr
    simp only
    apply NI.ite
    · exact .refl S
    · split
      · exact .refl S
      · next F hF =>
        have BF := (S.out _ hp).fams F hF
        split
        · exact .refl S
        · next fam hf =>
          have hfam := BF.get hf
          split
          · exact .refl S
          · next F1 hF1 =>
            have BF1 : FOut N F1 := by
              split at hF1
              · cases hF1; exact BF.del
              · simp only [Option.map_eq_some_iff] at hF1
                obtain ⟨l, hl, rfl⟩ := hF1
                exact BF.set (out_remove hfam hl)
            have A := NI.setFams S hp BF1
            have A := A.trans (NI.setTag A.sep (g := g) hx)
            generalize (h.setFams r.pid F1).modify x (fun n => { n with tag := g }) = h1 at A ⊢
            split
            · have B := A.trans (NI.setFams A.sep hp (BF1.set (t := g) (out_single hx)))
              split
              · exact B
              · exact B.trans (NI.setParent B.sep hx (fun q e => by cases e; exact hp))
            · next nf hnf =>
              have B := A.trans (NI.idx A.sep hx)
              split
              · exact B
              · exact B
              · next k _ =>
                have C := B.trans (NI.famInsIdx B.sep (k := k) (BF1.get hnf))
                split
                · exact C
                · next j _ =>
                  have D := C.trans (NI.setFams C.sep hp (BF1.set (t := g) (out_insert (k := (j : Int)) (BF1.get hnf) hx)))
                  split
                  · exact D
                  · next r' hr' =>
                    split
                    · exact D
                    · exact D.trans (NI.setParent D.sep hx (fun q e => by cases e; exact (D.sep.out x hx).parent r' hr'))

theorem NI.reverse (S : Sep N Q h) {p : Id} (hp : ¬ N p) : NI N Q h (ITree.reverse h p).1 := by
  unfold ITree.reverse
  split
  · exact .refl S
  · exact .refl S
  · have A := NI.setItems S hp (l := (h.kids p).reverse) (fun c hc => S.kids hp c (by simpa using hc))
    simp only
    split
    · exact A
    · next F hF =>
      refine A.trans (NI.setFams A.sep hp ?_)
      intro e he y hy
      simp only [List.mem_map] at he
      obtain ⟨e', he', rfl⟩ := he
      exact (S.out p hp).fams F hF e' he' y (by simpa using hy)

theorem NI.popMany {p : Id} {k : Int} (hp : ¬ N p) : ∀ (n : Nat) {h : Heap}, Sep N Q h →
    NI N Q h (ITree.popMany h p k n).1 ∧ ∀ xs, (ITree.popMany h p k n).2 = .ok xs → ∀ c ∈ xs, ¬ N c
  | 0, h, S => ⟨by simpa [ITree.popMany] using NI.refl S, fun xs e => by simp [ITree.popMany] at e; subst e; simp⟩
  | n + 1, h, S => by
    have A := NI.delInt S (k := k) hp
    have B := NI.popMany (k := k) hp n A.1.sep
    simp only [ITree.popMany]
    split
    · exact ⟨A.1, fun x e => by cases e⟩
    · next x hx =>
      split
      · exact ⟨A.1.trans B.1, fun x e => by cases e⟩
      · next xs hxs => exact ⟨A.1.trans B.1, fun ys e => by cases e; exact out_cons (A.2 x hx) (B.2 xs hxs)⟩

theorem NI.rotate (S : Sep N Q h) {p : Id} {n : Int} (hp : ¬ N p) : NI N Q h (ITree.rotate h p n).1 := by
  unfold ITree.rotate
  split
  · exact .refl S
  · exact .refl S
  · split
    · have A := NI.popMany (k := -1) hp n.toNat S
      simp only
      split
      · exact A.1
      · next xs hxs =>
        exact A.1.trans (.extendLeft A.1.sep hp (out_items fun c hc => A.2 xs hxs c (by simpa using hc)))
    · split
      · have A := NI.popMany (k := 0) hp (-n).toNat S
        simp only
        split
        · exact A.1
        · next xs hxs => exact A.1.trans (.extend A.1.sep hp (out_items (A.2 xs hxs)))
      · exact .refl S

theorem NI.sort (S : Sep N Q h) {p : Id} {key : Id → Int} {rev : Bool} (hp : ¬ N p) : NI N Q h (ITree.sort h p key rev).1 := by
  unfold ITree.sort
  split
  · exact .refl S
  · exact .refl S
  · have A := NI.emptied S hp
    refine A.trans (.extend A.sep hp (out_items fun c hc => S.kids hp c ?_))
    exact (List.mergeSort_perm _ _).mem_iff.1 hc

theorem NI.clear (S : Sep N Q h) {p : Id} {k : Bool} (hp : ¬ N p) (hQ : Q) : NI N Q h (ITree.clear h p k).1 := by
  unfold ITree.clear
  split
  · exact .refl S
  · have A : NI N Q h (if h.isLinkRoot p then h.modify p fun n => { n with link := n.link.map fun l => { l with loaded := true } } else h) := by
      split
      · refine NI.modify S hp ⟨(S.out p hp).items, (S.out p hp).parent, (S.out p hp).fams, (S.out p hp).stale, fun l y hl hy => ?_⟩
        simp only [Option.map_eq_some_iff] at hl
        obtain ⟨a, ha, rfl⟩ := hl
        exact (S.out p hp).cover a y ha hy
      · exact .refl S
    simp only
    generalize (if h.isLinkRoot p then h.modify p fun n => { n with link := n.link.map fun l => { l with loaded := true } } else h) = h1 at A ⊢
    split
    · exact A
    · have B : NI N Q h1 (h1.modify p fun n => { n with flags := unsetFlags n.flags Flags.loadLinks, items := [], stale := n.stale.or n.fams, fams := some [] }) := by
        refine NI.modify A.sep hp ⟨by simp, (A.sep.out p hp).parent, (fun F e => by cases e; exact .nil), fun F e => ?_, (A.sep.out p hp).cover⟩
        exact ⟨.inl hQ, A.sep.bound' hp (F := F) (by simpa [Heap.boundFams] using e)⟩
      have B := A.trans B
      split
      · exact B
      · exact B.trans (.setVal B.sep hp)

theorem out_snap (S : Sep N Q h) : ∀ (n : Nat) {x : Id}, ¬ N x → ∀ T ∈ (h.snap n x).pre, ¬ N T.id
  | 0, x, hx, T, hT => by
    simp [Heap.snap, Tree.pre, Tree.preL] at hT; subst hT; exact hx
  | n + 1, x, hx, T, hT => by
    simp only [Heap.snap, Tree.pre, List.mem_cons, preL_eq, List.mem_flatMap, List.mem_map] at hT
    rcases hT with rfl | ⟨k, ⟨c, hc, rfl⟩, hT⟩
    · exact hx
    · exact out_snap S n (S.kids hx c hc) T hT

theorem out_deep (S : Sep N Q h) {x : Id} (hx : ¬ N x) : ∀ c ∈ x :: (h.tree x).deep.map Tree.id, ¬ N c := by
  intro c hc
  rcases List.mem_cons.1 hc with rfl | hc
  · exact hx
  · simp only [List.mem_map] at hc
    obtain ⟨T, hT, rfl⟩ := hc
    refine out_snap S h.next hx T ?_
    unfold Heap.tree at hT
    generalize h.snap h.next x = U at hT ⊢
    cases U
    simp only [Tree.deep, Tree.kids, Tree.pre] at hT ⊢
    exact List.mem_cons_of_mem _ hT

theorem NI.setFlags1 (S : Sep N Q h) {x : Id} {f : Flags} (hx : ¬ N x) : NI N Q h (ITree.setFlags1 h x f).1 := by
  unfold ITree.setFlags1
  split
  · exact .refl S
  · exact .setFlags S (g := (· ||| f)) hx
theorem NI.setFlagsAll {f : Flags} : ∀ (l : List Id) {h : Heap}, Sep N Q h → (∀ c ∈ l, ¬ N c) → NI N Q h (ITree.setFlagsAll h f l).1
  | [], h, S, hl => by simpa [ITree.setFlagsAll] using NI.refl S
  | x :: xs, h, S, hl => by
    have A := NI.setFlags1 S (f := f) (hl x (by simp))
    simp only [ITree.setFlagsAll]
    split
    · exact A
    · exact A.trans (NI.setFlagsAll xs A.sep fun c hc => hl c (by simp [hc]))
theorem NI.setFlagsInit {f : Flags} : ∀ (l : List Id) {h : Heap}, Sep N Q h → (∀ c ∈ l, ¬ N c) → NI N Q h (ITree.setFlagsInit h f l)
  | [], h, S, hl => by simpa [ITree.setFlagsInit] using NI.refl S
  | x :: xs, h, S, hl => by
    have A := NI.setFlags S (g := (· ||| f)) (hl x (by simp))
    simp only [ITree.setFlagsInit]
    exact A.trans (NI.setFlagsInit xs A.sep fun c hc => hl c (by simp [hc]))
theorem NI.unsetFlagsOp (S : Sep N Q h) {x : Id} {f : Flags} (hx : ¬ N x) : NI N Q h (ITree.unsetFlagsOp h x f).1 := by
  unfold ITree.unsetFlagsOp
  split
  · exact .refl S
  · exact .setFlags S (g := (unsetFlags · f)) hx

theorem NI.initLoop {p : Id} {f : Flags} (hp : ¬ N p) : ∀ (as : List Arg) (idx : Nat) {h : Heap}, Sep N Q h → (∀ a ∈ as, a.Out N) →
    NI N Q h (ITree.initLoop h p idx f as)
  | [], idx, h, S, ha => by simpa [ITree.initLoop] using NI.refl S
  | a :: as, idx, h, S, ha => by
    have A := NI.extendOne S (idx := idx) hp (ha a (by simp))
    simp only [ITree.initLoop, ITree.initStep]
    generalize ITree.extendOne h p idx a = h1 at A ⊢
    have B : NI N Q h1 (match (h1.kids p).getLast? with
      | some x => if f = 0#6 then h1 else ITree.setFlagsInit h1 f (x :: (h1.tree x).deep.map Tree.id)
      | none => h1) := by
      split
      · next x hx =>
        split
        · exact .refl A.sep
        · exact NI.setFlagsInit _ A.sep (out_deep A.sep (A.sep.kids hp x (List.mem_of_getLast? hx)))
      · exact .refl A.sep
    have C := A.trans B
    exact C.trans (NI.initLoop hp as _ C.sep fun b hb => ha b (by simp [hb]))

theorem NI.newItem (S : Sep N Q h) {t : Tag} {v : Val} {sub : List Arg} {f : Flags} (ha : ∀ a ∈ sub, a.Out N) : NI N Q h (ITree.newItem h t v sub f).1 := by
  have A := NI.alloc S (N := N) (n := { tag := t, value := v, flags := f }) nodeOut_plain
  unfold ITree.newItem
  simp only
  generalize h.alloc { tag := t, value := v, flags := f } = r at A ⊢
  split
  · exact A.1
  · have B := A.1.trans (NI.modify A.1.sep (i := r.2) (f := fun n => { n with fams := some [] }) A.2 ⟨(A.1.sep.out _ A.2).items, (A.1.sep.out _ A.2).parent,
      (fun F e => by cases e; exact .nil), (A.1.sep.out _ A.2).stale, (A.1.sep.out _ A.2).cover⟩)
    exact B.trans (.initLoop A.2 _ _ B.sep ha)

theorem NI.newLink (S : Sep N Q h) {t : Tag} {v : Val} {sub : List Arg} {f : Flags} {file : Option String} {path : List Tag} (ha : ∀ a ∈ sub, a.Out N) :
    NI N Q h (ITree.newLink h t v sub f file path).1 := by
  have A := NI.newItem (t := t) (v := v) (f := f) S ha
  have hn : ¬ N h.next := fun e => Nat.lt_irrefl _ (S.lt _ e)
  have O := A.sep.out _ hn
  exact A.trans (NI.modify A.sep (i := h.next) (f := fun n => { n with flags := n.flags ||| Flags.linkRoot, link := some { file := file, path := path } }) hn ⟨O.items, O.parent, O.fams, O.stale, fun l c e hc => by cases e; simp at hc⟩)

theorem argItems_out {as : List Arg} (H : ∀ i ∈ argItems as, ¬ N i) : ∀ a ∈ as, a.Out N := fun a ha i e => H i (by
  subst e
  simp only [argItems, List.mem_filterMap]
  exact ⟨_, ha, rfl⟩)

theorem NI.step (ms : ModelSet) (S : Sep N Q h) (c : Call) (hc : ∀ i ∈ c.mentions, ¬ N i) (hQ : ∀ p k, c = .clear p k → Q) : NI N Q h (ITree.step ms h c).1 := by
  cases c with
  | new t v sub f => exact .newItem S (argItems_out hc)
  | newLink t v sub f file path => exact .newLink S (argItems_out hc)
  | append p a => exact (NI.append S (hc p (by simp [Call.mentions])) (argItems_out (fun i hi => hc i (List.mem_cons_of_mem _ hi)) a (by simp))).1
  | appendLeft p a => exact .appendLeft S (hc p (by simp [Call.mentions])) (argItems_out (fun i hi => hc i (List.mem_cons_of_mem _ hi)) a (by simp))
  | insert p tg a => exact .insert S (hc p (by simp [Call.mentions])) (argItems_out (fun i hi => hc i (List.mem_cons_of_mem _ hi)) a (by simp))
  | extend p as => exact .extend S (hc p (by simp [Call.mentions])) (argItems_out (fun i hi => hc i (List.mem_cons_of_mem _ hi)))
  | extendTree p u => exact .extendTree S (hc p (by simp [Call.mentions])) (hc u (by simp [Call.mentions]))
  | extendLeft p as => exact .extendLeft S (hc p (by simp [Call.mentions])) (argItems_out (fun i hi => hc i (List.mem_cons_of_mem _ hi)))
  | del p tg => exact .delItem S (hc p (by simp [Call.mentions]))
  | remove p x => exact .remove S (hc p (by simp [Call.mentions])) (hc x (by simp [Call.mentions]))
  | setItem p tg a => exact .setItem S (hc p (by simp [Call.mentions])) (argItems_out (fun i hi => hc i (List.mem_cons_of_mem _ hi)) a (by simp))
  | move x tg => exact .move S (hc x (by simp [Call.mentions]))
  | rename x g => exact .rename S (hc x (by simp [Call.mentions]))
  | reverse p => exact .reverse S (hc p (by simp [Call.mentions]))
  | rotate p n => exact .rotate S (hc p (by simp [Call.mentions]))
  | sort p k r => exact .sort S (hc p (by simp [Call.mentions]))
  | clear p k => exact .clear S (hc p (by simp [Call.mentions])) (hQ p k rfl)
  | copy x => exact (NI.copyItem S x).1
  | setTreeReadOnly x => exact NI.setFlagsAll _ S (out_deep S (hc x (by simp [Call.mentions])))
  | unsetTreeReadOnly x =>
    have hx := hc x (by simp [Call.mentions])
    simp only [ITree.step, ITree.unsetTreeReadOnly]
    split
    · split
      · exact .refl S
      · exact .unsetFlagsOp S hx
    · exact .unsetFlagsOp S hx
  | setValueReadOnly x => exact .setFlags1 S (hc x (by simp [Call.mentions]))
  | unsetValueReadOnly x => exact .unsetFlagsOp S (hc x (by simp [Call.mentions]))
  | setValue x v =>
    have hx := hc x (by simp [Call.mentions])
    simp only [ITree.step, Res.void, ITree.setValue]
    split
    · exact .refl S
    · split
      · exact .setVal S hx
      · exact .refl S
  | setKeyValue x k v =>
    have hx := hc x (by simp [Call.mentions])
    simp only [ITree.step, Res.void, ITree.setKeyValue]
    split
    · exact .refl S
    · split
      · exact .setVal S hx
      · exact .refl S
  | delValue x =>
    have hx := hc x (by simp [Call.mentions])
    simp only [ITree.step, Res.void, ITree.delValue]
    split
    · exact .refl S
    · exact .setVal S hx
  | delKeyValue x k =>
    have hx := hc x (by simp [Call.mentions])
    simp only [ITree.step, Res.void, ITree.delKeyValue]
    split
    · exact .refl S
    · split
      · exact .setVal S hx
      · exact .refl S
  | readIdx x => exact .idx S (hc x (by simp [Call.mentions]))
  | readTagIdx x => exact .tagIdx S (hc x (by simp [Call.mentions]))

theorem NI.run (ms : ModelSet) : ∀ (cs : List Call) {h : Heap}, Sep N Q h → (∀ c ∈ cs, ∀ i ∈ c.mentions, ¬ N i) → Q → NI N Q h (ITree.run ms h cs)
  | [], h, S, hc, _ => by simpa [ITree.run] using NI.refl S
  | c :: cs, h, S, hc, hQ => by
    have A := NI.step ms S c (hc c (by simp)) (fun _ _ _ => hQ)
    simp only [ITree.run]
    exact A.trans (NI.run ms cs A.sep (fun d hd => hc d (by simp [hd])) hQ)

end

end ITree
