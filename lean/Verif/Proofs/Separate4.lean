import Verif.Proofs.Reach
/-
Separation: the further calls of Model/More.
-/
namespace ITree

section
variable {N : Id → Prop} {Q : Prop} {h h' : Heap}

/-! ### the getter -/

/-- the items of an intermediate result -/
def Found.all (f : Found) : List Id := f.elems.flatMap Elem.ids

theorem found_items (l : List Id) : (Found.items l).all = l := by
  simp only [Found.all, Found.items, Found.elems]
  induction l with
  | nil => rfl
  | cons a l ih => simpa [Elem.ids] using ih

theorem found_iter (l : List Id) : (Found.iter (l.map Elem.item)).all = l := found_items l

theorem out_childFallback {F : Fams} (H : FOut N F) {tg : Target} {e : Err} {r : Bool × Found} (hr : childFallback F tg e = .ok r) : ∀ c ∈ r.2.all, ¬ N c := by
  unfold childFallback at hr
  split at hr
  · split at hr
    · next l hl => cases hr; rw [found_items]; exact H.get hl
    · cases hr
  · cases hr

theorem out_childKey {F : Fams} (H : FOut N F) {g : Tag} {sel : FamSel} {r : Bool × Found} (hr : childKey F g sel = .ok r) : ∀ c ∈ r.2.all, ¬ N c := by
  unfold childKey at hr
  simp only at hr
  split at hr
  · exact out_childFallback H hr
  · next fam hf =>
    have hfam := H.get hf
    split at hr
    · cases hr; rw [found_items]; exact hfam
    · split at hr
      · next x hx => cases hr; exact out_single (hfam _ (pyGet_mem hx))
      · exact out_childFallback H hr
    · split at hr
      · next l hl => cases hr; rw [found_items]; exact out_slice hfam hl
      · exact out_childFallback H hr
    · split at hr
      · next l hl => cases hr; rw [found_items]; exact out_mapM hfam hl
      · exact out_childFallback H hr
    · split at hr
      · split at hr
        · next l hl => cases hr; rw [found_items]; exact out_mapM hfam hl
        · exact out_childFallback H hr
      · exact out_childFallback H hr

theorem out_childRen (S : Sep N Q h) {p : Id} (hp : ¬ N p) {tg : Target} {r : Bool × Found} (hr : childRen h p tg = .ok r) : ∀ c ∈ r.2.all, ¬ N c := by
  unfold childRen at hr
  split at hr
  · cases hr
  simp only at hr
  split at hr
  · exact out_childKey (S.bound hp) hr
  · split at hr
    · next x hx => cases hr; exact out_single (S.kids hp _ (pyGet_mem hx))
    · exact out_childFallback (S.bound hp) hr
  · split at hr
    · next l hl => cases hr; rw [found_items]; exact out_slice (S.kids hp) hl
    · cases hr
  · split at hr
    · next ls hl =>
      split at hr
      · cases hr
      · cases hr; rw [found_items]; exact out_tags (S.bound hp) hl
    · cases hr
  · split at hr
    · next q hq =>
      split at hr
      · cases hr
      · cases hr; rw [found_items]; exact out_getItems S hp hq
    · cases hr
  · cases hr; rw [found_items]; exact S.kids hp
  · cases hr; rw [found_iter]; exact fun c hc => S.kids hp c (List.mem_of_mem_filter hc)
  · split at hr
    · next l hl => cases hr; rw [found_items]; exact (S.bound hp).get hl
    · cases hr
  · cases hr

theorem out_plainIndex {l r : List Id} (hl : ∀ c ∈ l, ¬ N c) {t : Target} (hr : plainIndex l t = .ok r) : ∀ c ∈ r, ¬ N c := by
  unfold plainIndex at hr
  split at hr
  · split at hr
    · next x hx => cases hr; exact out_single (hl _ (pyGet_mem hx))
    · cases hr
  · split at hr
    · next r hx => cases hr; exact out_slice hl hx
    · cases hr
  · cases hr

theorem out_plainIndexes {l : List Id} (hl : ∀ c ∈ l, ¬ N c) : ∀ {ts : List Target} {rs : List (List Id)}, ts.mapM (plainIndex l) = .ok rs → ∀ c ∈ rs.flatten, ¬ N c := by
  intro ts
  induction ts with
  | nil => intro rs hr; simp only [List.mapM_nil] at hr; cases hr; simp
  | cons t ts ih =>
    intro rs hr
    simp only [List.mapM_cons] at hr
    cases ha : plainIndex l t with
    | error e => rw [ha] at hr; cases hr
    | ok a =>
      rw [ha] at hr
      cases hb : ts.mapM (plainIndex l) with
      | error e => rw [hb] at hr; cases hr
      | ok b =>
        rw [hb] at hr
        cases hr
        rw [List.flatten_cons]
        exact out_append (out_plainIndex hl ha) (ih hb)

theorem out_childRenList {l : List Id} (hl : ∀ c ∈ l, ¬ N c) {tg : Target} {r : Bool × Found} (hr : childRenList l tg = .ok r) : ∀ c ∈ r.2.all, ¬ N c := by
  unfold childRenList at hr
  split at hr
  · cases hr
  split at hr
  · cases hr
  · split at hr
    · next rs hq =>
      split at hr
      · cases hr
      · cases hr; rw [found_items]; exact out_plainIndexes hl hq
    · cases hr
  · cases hr; rw [found_iter]; exact fun c hc => hl c (List.mem_of_mem_filter hc)
  · cases hr

theorem out_levelMany (S : Sep N Q h) (tg : Target) : ∀ (es : List Elem), (∀ c ∈ es.flatMap Elem.ids, ¬ N c) → ∀ c ∈ (levelMany h tg es).flatMap Elem.ids, ¬ N c
  | [], _ => by simp [levelMany]
  | e :: es, H => by
    simp only [List.flatMap_cons] at H
    have H1 : ∀ c ∈ e.ids, ¬ N c := fun c hc => H c (List.mem_append_left _ hc)
    have ih := out_levelMany S tg es fun c hc => H c (List.mem_append_right _ hc)
    have K : ∀ r : Except Err (Bool × Found), (∀ q, r = .ok q → ∀ c ∈ q.2.all, ¬ N c) → ∀ c ∈ (match r with
      | .ok (true, .one x) => [Elem.item x]
      | .ok (true, f) => [Elem.list (f.elems.flatMap Elem.ids)]
      | .ok (false, f) => f.elems
      | .error _ => []).flatMap Elem.ids, ¬ N c := by
      intro r hr
      split
      · next x => have := hr _ rfl; simpa [Found.all, Found.elems, Elem.ids] using this
      · next f _ => have := hr _ rfl; simpa [Found.all, Elem.ids] using this
      · next f => exact hr _ rfl
      · simp
    cases e with
    | item i =>
      simp only [levelMany, List.flatMap_append]
      exact out_append (K _ fun q hq => out_childRen S (H1 i (by simp [Elem.ids])) hq) ih
    | list l =>
      simp only [levelMany, List.flatMap_append]
      exact out_append (K _ fun q hq => out_childRenList H1 hq) ih

theorem out_levelStep (S : Sep N Q h) {tg : Target} {r r' : Bool × Found} (hr : ∀ c ∈ r.2.all, ¬ N c) (e : levelStep h tg r = .ok r') : ∀ c ∈ r'.2.all, ¬ N c := by
  unfold levelStep at e
  split at e
  · exact out_childRen S (hr _ (by simp [Found.all, Found.elems, Elem.ids])) e
  · exact out_childRenList hr e
  · cases e; exact out_levelMany S tg _ hr

theorem out_levelLoop (S : Sep N Q h) : ∀ (ts : List Target) {r r' : Bool × Found}, (∀ c ∈ r.2.all, ¬ N c) → levelLoop h ts r = .ok r' → ∀ c ∈ r'.2.all, ¬ N c
  | [], r, r', hr, e => by simp only [levelLoop] at e; cases e; exact hr
  | t :: ts, r, r', hr, e => by
    simp only [levelLoop] at e
    split at e
    · next q hq => exact out_levelLoop S ts (out_levelStep S hr hq) e
    · cases e

/-- the items of a result of `get` -/
def GetOut.all : GetOut → List Id
  | .one i => [i]
  | .list l => l.flatMap Elem.ids

theorem out_getPath (S : Sep N Q h) {p : Id} (hp : ¬ N p) {t : Target} {ts : List Target} {o : GetOut} (e : getPath h p t ts = .ok o) : ∀ c ∈ o.all, ¬ N c := by
  unfold getPath at e
  split at e
  · cases e
  · next r hr =>
    have A := out_childRen S hp hr
    split at e
    · split at e
      · cases e; simpa [Found.all, Found.elems, Elem.ids, GetOut.all] using A
      · cases e; exact A
    · split at e
      · cases e
      · next x hx => cases e; have := out_levelLoop S ts A hx; simpa [Found.all, Found.elems, Elem.ids, GetOut.all] using this
      · cases e
      · next hx => cases e; exact out_levelLoop S ts A hx

/-! ### loops -/

theorem NI.forEach {f : Heap → Id → Res Unit} (H : ∀ h x, Sep N Q h → ¬ N x → NI N Q h (f h x).1) : ∀ (l : List Id) {h : Heap}, Sep N Q h → (∀ x ∈ l, ¬ N x) → NI N Q h (ITree.forEach f h l).1
  | [], h, S, _ => .refl S
  | x :: xs, h, S, hl => by
    have A := H h x S (hl x (by simp))
    simp only [ITree.forEach]
    split
    · exact A
    · exact A.trans (NI.forEach H xs A.sep fun y hy => hl y (by simp [hy]))

theorem NI.deepReverse (n : Nat) : ∀ (h : Heap) (x : Id), Sep N Q h → ¬ N x → NI N Q h (ITree.deepReverse n h x).1 := by
  induction n with
  | zero => intro h x S _; exact .refl S
  | succ n ih =>
    intro h x S hx
    simp only [ITree.deepReverse]
    split
    · exact .refl S
    · exact .refl S
    · split
      · exact .refl S
      · have A := NI.reverse S hx
        split
        · exact A
        · exact A.trans (NI.forEach ih _ A.sep (A.sep.kids hx))

theorem NI.deepSort (key : Heap → Id → Int) (rev : Bool) (n : Nat) : ∀ (h : Heap) (x : Id), Sep N Q h → ¬ N x → NI N Q h (ITree.deepSort key rev n h x).1 := by
  induction n with
  | zero => intro h x S _; exact .refl S
  | succ n ih =>
    intro h x S hx
    simp only [ITree.deepSort]
    split
    · exact .refl S
    · exact .refl S
    · have A := NI.sort S (key := key h) (rev := rev) hx
      split
      · exact A
      · exact A.trans (NI.forEach ih _ A.sep (A.sep.kids hx))

theorem NI.removeFromParent (S : Sep N Q h) {x : Id} (hx : ¬ N x) : NI N Q h (ITree.removeFromParent h x).1 := by
  unfold ITree.removeFromParent
  split
  · exact .refl S
  · next q hq =>
    simp only [Heap.par, Option.map_eq_some_iff] at hq
    obtain ⟨r, hr, rfl⟩ := hq
    exact NI.remove S ((S.out x hx).parent r hr) hx

theorem NI.removeElems : ∀ (es : List Elem) {h : Heap}, Sep N Q h → (∀ c ∈ es.flatMap Elem.ids, ¬ N c) → NI N Q h (ITree.removeElems h es).1
  | [], h, S, _ => .refl S
  | .list _ :: _, h, S, _ => .refl S
  | .item x :: es, h, S, H => by
    have A := NI.removeFromParent S (H x (by simp [Elem.ids]))
    simp only [ITree.removeElems]
    split
    · exact A
    · exact A.trans (NI.removeElems es A.sep fun c hc => H c (by simp only [List.flatMap_cons]; exact List.mem_append_right _ hc))

theorem NI.deepRemove (S : Sep N Q h) {p : Id} (hp : ¬ N p) (t : Target) (ts : List Target) : NI N Q h (ITree.deepRemove h p t ts).1 := by
  unfold ITree.deepRemove
  split
  · exact .refl S
  · next x hx =>
    have := out_getPath S hp hx
    have A := NI.removeFromParent S (this x (by simp [GetOut.all]))
    simp only; split <;> exact A
  · next es hx =>
    have A := NI.removeElems es S (out_getPath S hp hx)
    simp only; split <;> exact A

mutual
theorem mem_pre_of_preF (f : Id → Bool) : ∀ (T : Tree) {y : Id}, y ∈ T.preF f → ∃ U ∈ T.pre, U.id = y
  | .node i t v fl l ks, y, hy => by
    simp only [Tree.preF] at hy
    split at hy
    · rcases List.mem_cons.1 hy with rfl | hy
      · exact ⟨.node y t v fl l ks, by simp [Tree.pre], rfl⟩
      · obtain ⟨U, hU, e⟩ := mem_pre_of_preFL f ks hy
        exact ⟨U, by simp [Tree.pre, hU], e⟩
    · cases hy
theorem mem_pre_of_preFL (f : Id → Bool) : ∀ (l : List Tree) {y : Id}, y ∈ Tree.preFL f l → ∃ U ∈ Tree.preL l, U.id = y
  | [], y, hy => by simp [Tree.preFL] at hy
  | k :: ks, y, hy => by
    simp only [Tree.preFL, List.mem_append] at hy
    rcases hy with hy | hy
    · obtain ⟨U, hU, e⟩ := mem_pre_of_preF f k hy; exact ⟨U, by simp [Tree.preL, hU], e⟩
    · obtain ⟨U, hU, e⟩ := mem_pre_of_preFL f ks hy; exact ⟨U, by simp [Tree.preL, hU], e⟩
end

theorem out_flagTargets (S : Sep N Q h) {x : Id} (hx : ¬ N x) (f : Option (Id → Bool)) (hier : Bool) : ∀ c ∈ flagTargets h x f hier, ¬ N c := by
  have D := out_deep S hx
  unfold flagTargets
  cases f with
  | none => exact D
  | some f =>
    refine out_append (fun c hc => ?_) fun c hc => D c (List.mem_cons_of_mem _ ?_)
    · split at hc
      · exact out_single hx c hc
      · cases hc
    · split at hc
      · obtain ⟨U, hU, rfl⟩ := mem_pre_of_preFL f _ hc
        exact List.mem_map_of_mem hU
      · exact List.mem_of_mem_filter hc

theorem NI.flagLoop (S : Sep N Q h) {x : Id} (hx : ¬ N x) (f : Option (Id → Bool)) (hier : Bool) {g : Heap → Id → Res Unit} (H : ∀ h x, Sep N Q h → ¬ N x → NI N Q h (g h x).1) :
    NI N Q h (if parentReadOnly h x then ((h, .error .permission) : Res Unit) else ITree.forEach g h (flagTargets h x f hier)).1 := by
  split
  · exact .refl S
  · exact NI.forEach H _ S (out_flagTargets S hx f hier)

/-! ### positions -/

theorem NI.writePos (c : Cache) : ∀ (l : List Id) {h : Heap} (i : Nat), Sep N Q h → (∀ x ∈ l, ¬ N x) → NI N Q h (ITree.writePos c h l i).1
  | [], h, _, S, _ => .refl S
  | y :: ys, h, i, S, hl => by
    simp only [ITree.writePos]
    split
    · exact .refl S
    · next r hr =>
      split
      · exact .refl S
      · have hy := hl y (by simp)
        have A := NI.setParent S (x := y) (r := some (r.setC c i)) hy fun q e => by
          cases e
          have := (S.out y hy).parent r hr
          cases c <;> exact this
        exact A.trans (NI.writePos c ys (i + 1) A.sep fun z hz => hl z (by simp [hz]))

theorem NI.writeFams : ∀ (F : Fams) {h : Heap}, Sep N Q h → FOut N F → NI N Q h (ITree.writeFams h F).1
  | [], h, S, _ => .refl S
  | e :: F, h, S, hF => by
    have A := NI.writePos .fam e.2 0 S (hF e (by simp))
    simp only [ITree.writeFams]
    split
    · exact A
    · exact A.trans (NI.writeFams F A.sep fun x hx => hF x (by simp [hx]))

theorem NI.forceCache (S : Sep N Q h) {x : Id} (hx : ¬ N x) (i f a : Bool) : NI N Q h (ITree.forceCache h x i f a).1 := by
  unfold ITree.forceCache
  split
  · exact .refl S
  · next r hr =>
    have hp := (S.out x hx).parent r hr
    have A : NI N Q h (if i then ITree.writePos .abs h (h.kids r.pid) 0 else (h, .ok ())).1 := by
      split
      · exact NI.writePos _ _ _ S (S.kids hp)
      · exact .refl S
    simp only
    split
    · exact A
    · split
      · split
        · exact A
        · next F hF =>
          split
          · exact A
          · next l hl => exact A.trans (NI.writePos _ _ _ A.sep ((A.sep.bound' hx hF).get hl))
      · split
        · split
          · exact A
          · next F hF => exact A.trans (NI.writeFams _ A.sep ((A.sep.out _ hp).fams F hF))
        · exact A

/-! ### removing several items, clearing -/

theorem NI.removeLoop {p : Id} (hp : ¬ N p) : ∀ (l : List Id) {h : Heap}, Sep N Q h → (∀ x ∈ l, ¬ N x) → NI N Q h (ITree.removeLoop h p l).1
  | [], h, S, _ => .refl S
  | x :: xs, h, S, hl => by
    have A := (NI.delByItem S hp (hl x (by simp))).1
    simp only [ITree.removeLoop]
    split
    · exact A
    · exact A
    · exact A
    · exact A.trans (NI.removeLoop hp xs A.sep fun y hy => hl y (by simp [hy]))

theorem NI.removeMany (S : Sep N Q h) {p : Id} (hp : ¬ N p) {l : List Id} (hl : ∀ x ∈ l, ¬ N x) : NI N Q h (ITree.removeMany h p l).1 := by
  unfold ITree.removeMany
  split
  · exact .refl S
  · exact NI.removeLoop hp _ S fun x hx => hl x (List.mem_reverse.1 hx)

theorem NI.clearLocalLoop {p : Id} (hp : ¬ N p) : ∀ (n : Nat) {h : Heap} (i : Nat) (add : Bool) (td : List (Tag × Int)), Sep N Q h → NI N Q h (ITree.clearLocalLoop p n h i add td).1
  | 0, h, _, _, _, S => .refl S
  | n + 1, h, i, add, td, S => by
    simp only [ITree.clearLocalLoop]
    split
    · exact .refl S
    · next x hx =>
      have hx := S.kids hp x (List.mem_of_getElem? hx)
      split
      · exact .refl S
      · next k td' _ =>
        split
        · exact .refl S
        · next r hr =>
          split
          · exact .refl S
          · have A := NI.setParent S (x := x) (r := some (r.setC .fam k)) hx fun q e => by cases e; exact (S.out x hx).parent r hr
            split
            · exact A.trans (NI.clearLocalLoop hp n _ _ _ A.sep)
            · split
              · exact A.trans (NI.clearLocalLoop hp n _ _ _ A.sep)
              · have B := A.trans (NI.delByItem A.sep hp hx).1
                split
                · exact B
                · exact B.trans (NI.clearLocalLoop hp n _ _ _ B.sep)

theorem NI.clearLocal (S : Sep N Q h) {p : Id} (hp : ¬ N p) (k : Bool) (hQ : Q) : NI N Q h (ITree.clearLocal h p k).1 := by
  unfold ITree.clearLocal
  split
  · have A := NI.clearLocalLoop hp ((h.kids p).length + 1) 0 false ((h.kids p).map fun c => (h.tag c, -1)) S
    unfold clearLocalRoot
    simp only
    split
    · exact A
    · split
      · exact A
      · exact A.trans (NI.setVal (v := .noValue) A.sep hp)
  · exact NI.clear S hp hQ

/-! ### new items -/

theorem NI.newFrom (S : Sep N Q h) {t : Tag} {v : Val} {sub : List Arg} {f : Flags} (ha : ∀ a ∈ sub, a.Out N) : NI N Q h (ITree.newFrom h t v sub f).1 := by
  have B := NI.alloc S (n := { tag := t, value := v, flags := f, fams := some [] }) ⟨by simp, by simp, (fun F e => by cases e; simp [FOut]), by simp, by simp⟩
  exact B.1.trans (NI.initLoop B.2 _ _ B.1.sep ha)

theorem NI.copyAll : ∀ (l : List Id) {h : Heap}, Sep N Q h → NI N Q h (ITree.copyAll h l).1 ∧ ∀ i ∈ (ITree.copyAll h l).2, ¬ N i
  | [], h, S => ⟨.refl S, by simp [ITree.copyAll]⟩
  | x :: xs, h, S => by
    have A := NI.copyItem S x
    have B := NI.copyAll xs A.1.sep
    exact ⟨A.1.trans B.1, out_cons A.2 B.2⟩

theorem out_args {l : List Id} (hl : ∀ i ∈ l, ¬ N i) : ∀ a ∈ l.map Arg.item, a.Out N := fun a ha i e => by
  obtain ⟨j, hj, rfl⟩ := List.mem_map.1 ha
  cases e; exact hl _ hj

mutual
theorem NI.rebuild : ∀ (s : Shape) {h : Heap}, Sep N Q h → NI N Q h (ITree.rebuild h s).1 ∧ ¬ N (ITree.rebuild h s).2
  | .node t v f l ks, h, S => by
    have A := NI.rebuildL ks S
    simp only [ITree.rebuild, heapBuilder]
    cases l with
    | none =>
      have B := NI.newItem (t := t) (v := v) (f := f) A.1.sep (out_args A.2)
      have e := newItem_fst (ITree.rebuildL h ks).1 t v ((ITree.rebuildL h ks).2.map Arg.item) f
      dsimp only
      generalize ITree.newItem (ITree.rebuildL h ks).1 t v ((ITree.rebuildL h ks).2.map Arg.item) f = r at B e ⊢
      obtain ⟨h', o⟩ := r
      simp only at e; subst e
      exact ⟨A.1.trans B, A.1.sep.next⟩
    | some lk =>
      have B := NI.newLink (t := t) (v := v) (f := f) (file := lk.file) (path := lk.path) A.1.sep (out_args A.2)
      have e : (ITree.newLink (ITree.rebuildL h ks).1 t v ((ITree.rebuildL h ks).2.map Arg.item) f lk.file lk.path).2 = .ok (ITree.rebuildL h ks).1.next :=
        newItem_fst (ITree.rebuildL h ks).1 t v ((ITree.rebuildL h ks).2.map Arg.item) f
      dsimp only
      generalize ITree.newLink (ITree.rebuildL h ks).1 t v ((ITree.rebuildL h ks).2.map Arg.item) f lk.file lk.path = r at B e ⊢
      obtain ⟨h', o⟩ := r
      simp only at e; subst e
      exact ⟨A.1.trans B, A.1.sep.next⟩
theorem NI.rebuildL : ∀ (l : List Shape) {h : Heap}, Sep N Q h → NI N Q h (ITree.rebuildL h l).1 ∧ ∀ i ∈ (ITree.rebuildL h l).2, ¬ N i
  | [], h, S => ⟨.refl S, by simp [ITree.rebuildL]⟩
  | k :: ks, h, S => by
    have A := NI.rebuild k S
    have B := NI.rebuildL ks A.1.sep
    exact ⟨A.1.trans B.1, out_cons A.2 B.2⟩
end

theorem NI.more (S : Sep N Q h) (m : More) (hm : ∀ i ∈ m.mentions, ¬ N i) (hQ : Q) : NI N Q h (ITree.more h m) := by
  cases m with
  | deepReverse n x => exact NI.deepReverse n h x S (hm x (by simp [More.mentions]))
  | deepSort key rev n x => exact NI.deepSort key rev n h x S (hm x (by simp [More.mentions]))
  | deepRemove p t ts => exact NI.deepRemove S (hm p (by simp [More.mentions])) t ts
  | deepUnsetTreeReadOnly x f hier => exact NI.flagLoop S (hm x (by simp [More.mentions])) f hier fun _ _ S hx => NI.unsetFlagsOp S hx
  | deepUnsetValueReadOnly x f hier => exact NI.flagLoop S (hm x (by simp [More.mentions])) f hier fun _ _ S hx => NI.unsetFlagsOp S hx
  | deepSetValueReadOnly x f hier => exact NI.flagLoop S (hm x (by simp [More.mentions])) f hier fun _ _ S hx => NI.setFlags1 S hx
  | forceCache x i f a => exact NI.forceCache S (hm x (by simp [More.mentions])) i f a
  | removeMany p l => exact NI.removeMany S (hm p (by simp [More.mentions])) fun x hx => hm x (by simp [More.mentions, hx])
  | clearLocal p k => exact NI.clearLocal S (hm p (by simp [More.mentions])) k hQ
  | add t u =>
    simp only [ITree.more, addItems]
    split
    · exact .refl S
    · have A := NI.copyAll (h.kids t ++ h.kids u) S
      exact A.1.trans (NI.newFrom A.1.sep (out_args A.2))
  | mul t k =>
    have A := NI.copyItem S t
    exact A.1.trans (NI.newFrom A.1.sep fun a ha i e => by rw [(List.mem_replicate.1 ha).2] at e; cases e; exact A.2)
  | mulTree t u =>
    simp only [ITree.more, ITree.mulTree]
    split
    · exact .refl S
    · have A := NI.copyAll (h.kids t) S
      have B := NI.copyAll (h.kids u) A.1.sep
      refine (A.1.trans B.1).trans (NI.newFrom B.1.sep (out_args fun i hi => ?_))
      simp only [List.mem_flatMap, List.mem_cons, List.not_mem_nil, or_false] at hi
      obtain ⟨a, ha, b, hb, hi⟩ := hi
      rcases hi with rfl | rfl
      · exact A.2 _ ha
      · exact B.2 _ hb
  | rmul k t =>
    have A := NI.copyItem S t
    exact A.1.trans (NI.newFrom A.1.sep fun a ha i e => by rw [(List.mem_replicate.1 ha).2] at e; cases e; exact A.2)
  | build s => exact (NI.rebuild s S).1

theorem NI.runActs (ms : ModelSet) : ∀ (as : List AnyCall) {h : Heap}, Sep N Q h → (∀ a ∈ as, ∀ i ∈ a.mentions, ¬ N i) → Q → NI N Q h (ITree.runActs ms h as)
  | [], h, S, _, _ => .refl S
  | .call c :: as, h, S, hc, hQ => by
    have A := NI.step ms S c (hc (.call c) (by simp)) (fun _ _ _ => hQ)
    exact A.trans (NI.runActs ms as A.sep (fun d hd => hc d (by simp [hd])) hQ)
  | .more m :: as, h, S, hc, hQ => by
    have A := NI.more S m (hc (.more m) (by simp)) hQ
    exact A.trans (NI.runActs ms as A.sep (fun d hd => hc d (by simp [hd])) hQ)
end

end ITree
