import Verif.Props.Protect
import Verif.Proofs.Separate4
/-
Which objects a call can write: a frame rule for invariants of the heap.
-/
namespace ITree

/-- more flags, none of them LINK_ROOT -/
def Flags.Grow (f g : Flags) : Prop := ∃ m : Flags, m.has Flags.linkRoot = false ∧ g = f ||| m

/-- only the list of children and the families differ -/
structure OnlyKids (m n : Node) : Prop where
  tag : m.tag = n.tag
  value : m.value = n.value
  flags : m.flags = n.flags
  parent : m.parent = n.parent
  link : m.link = n.link

/-- what `clear` leaves alone -/
structure ClearLike (keep : Bool) (m n : Node) : Prop where
  tag : m.tag = n.tag
  parent : m.parent = n.parent
  value : keep = true → m.value = n.value

/-- what an invariant `I` must allow: writing parent references, changing the children of the items in `Ok`, new objects, setting flags, anything on objects made later; items that are not in `Ok` are structure protected -/
structure Frm (I : Heap → Prop) (Ok : Id → Prop) : Prop where
  parent : ∀ {h : Heap} {x : Id} {r : Option PRef}, I h → I (h.setParent x r)
  kids : ∀ {h : Heap} {q : Id} {f : Node → Node}, I h → Ok q → (∀ n, OnlyKids (f n) n) → I (h.modify q f)
  alloc' : ∀ {h : Heap} (m : Node), I h → I (h.alloc m).1 ∧ Ok (h.alloc m).2
  grow : ∀ {h : Heap} {x : Id} {f : Flags}, f.has Flags.linkRoot = false → I h → I (h.modify x fun n => { n with flags := n.flags ||| f })
  new : ∀ {h0 h : Heap} {q : Id} {f : Node → Node}, I h0 → I h → h0.next ≤ q → I (h.modify q f)
  locked : ∀ {h : Heap} {q : Id}, I h → ¬ Ok q → TreeLocked h q

/-- the item whose value the call sets -/
def Call.writesValue : Call → Option Id
  | .setValue x _ => some x
  | .setKeyValue x _ _ => some x
  | .delValue x => some x
  | .delKeyValue x _ => some x
  | _ => none
/-- the item whose flags the call takes away -/
def Call.unsets : Call → Option Id
  | .unsetTreeReadOnly x => some x
  | .unsetValueReadOnly x => some x
  | _ => none
/-- the items whose flags the call takes away -/
def More.unsetTargets (h : Heap) : More → List Id
  | .deepUnsetTreeReadOnly x f b => flagTargets h x f b
  | .deepUnsetValueReadOnly x f b => flagTargets h x f b
  | _ => []

theorem noVal {f : Flags} (H : ¬ f.has Flags.valueProtected = true) : f.has Flags.readOnlyValue = false := by revert f; decide

section
variable {I : Heap → Prop} {Ok : Id → Prop} {h : Heap}

theorem Frm.alloc (V : Frm I Ok) (S : I h) (m : Node) : I (h.alloc m).1 ∧ Ok (h.alloc m).2 := V.alloc' m S
theorem Frm.setParent (V : Frm I Ok) (S : I h) {x : Id} {r : Option PRef} : I (h.setParent x r) := V.parent S
theorem Frm.setItems (V : Frm I Ok) (S : I h) {q : Id} {l : List Id} (hq : Ok q) : I (h.setItems q l) := V.kids S hq fun _ => ⟨rfl, rfl, rfl, rfl, rfl⟩
theorem Frm.setFams (V : Frm I Ok) (S : I h) {q : Id} {F : Fams} (hq : Ok q) : I (h.setFams q F) := V.kids S hq fun _ => ⟨rfl, rfl, rfl, rfl, rfl⟩
theorem Frm.plain (V : Frm I Ok) (S : I h) {q : Id} {f : Node → Node} (hq : Ok q) (hf : ∀ n, OnlyKids (f n) n := by intro n; exact ⟨rfl, rfl, rfl, rfl, rfl⟩) : I (h.modify q f) := V.kids S hq hf

/-- close goals `I (…)` -/
macro "still" : tactic => `(tactic| repeat' first
  | assumption
  | (refine Frm.setParent (by assumption) ?_)
  | (refine Frm.setItems (by assumption) ?_ (by assumption))
  | (refine Frm.setFams (by assumption) ?_ (by assumption))
  | (refine Frm.plain (by assumption) ?_ (by assumption))
  | split)

/-! ### positions -/

theorem Frm.scanFwd (V : Frm I Ok) (c : Cache) (x : Id) : ∀ (l : List Id) (i : Nat) {h : Heap}, I h → I (ITree.scanFwd c h x l i).1
  | [], i, h, S => by simpa [ITree.scanFwd] using S
  | y :: ys, i, h, S => by
    simp only [ITree.scanFwd]
    split
    · exact S
    · next r hr =>
      split
      · exact S
      · split
        · exact (V.setParent S)
        · exact V.scanFwd c x ys (i + 1) (V.setParent S)
theorem Frm.scanBwd (V : Frm I Ok) (c : Cache) (x : Id) : ∀ (l : List Id) (i : Nat) {h : Heap}, I h → I (ITree.scanBwd c h x l i).1
  | [], i, h, S => by simpa [ITree.scanBwd] using S
  | y :: ys, i, h, S => by
    simp only [ITree.scanBwd]
    split
    · exact S
    · next r hr =>
      split
      · exact S
      · split
        · exact (V.setParent S)
        · exact V.scanBwd c x ys (i - 1) (V.setParent S)

theorem Frm.cachedPos (V : Frm I Ok) (S : I h) (c : Cache) {x : Id} {r : PRef} {l : List Id} : I (ITree.cachedPos c h x r l).1 := by
  have slow : I (match windowFind l x (max 0 (r.getC c - 20)).toNat (min (l.length : Int) (r.getC c + 20 + 1)).toNat with
    | some i => if r.frozen then (h, Except.error Err.type) else (h.setParent x (some (r.setC c i)), .ok (((i : Int), false) : Int × Bool))
    | none => ((if 2 * r.getC c < l.length then ITree.scanFwd c h x l 0 else ITree.scanBwd c h x l.reverse (l.length - 1)).1,
        match (if 2 * r.getC c < l.length then ITree.scanFwd c h x l 0 else ITree.scanBwd c h x l.reverse (l.length - 1)).2 with
        | .ok i => .ok ((i : Int), true) | .error e => .error e)).1 := by
    split
    · split
      · exact S
      · exact (V.setParent S)
    · dsimp only
      split
      · exact V.scanFwd c x _ _ S
      · exact V.scanBwd c x _ _ S
  unfold ITree.cachedPos
  simp only
  split
  · split
    · exact S
    · split
      · exact S
      · exact slow
  · exact slow

theorem Frm.idx (V : Frm I Ok) (S : I h) {x : Id} : I (h.idx x).1 := by
  unfold Heap.idx
  split
  · exact S
  · exact V.cachedPos S .abs
theorem Frm.tagIdx (V : Frm I Ok) (S : I h) {x : Id} : I (h.tagIdx x).1 := by
  unfold Heap.tagIdx
  split
  · exact S
  · split
    · exact S
    · split
      · exact S
      · exact V.cachedPos S .fam

theorem Frm.famInsIdxAux (V : Frm I Ok) (k : Int) : ∀ (fuel : Nat) (fam : List Id) (last : Nat) {h : Heap}, I h → I (ITree.famInsIdxAux fuel h fam k last).1
  | 0, fam, last, h, S => by simpa [ITree.famInsIdxAux] using S
  | fuel + 1, [], last, h, S => by simpa [ITree.famInsIdxAux] using S
  | fuel + 1, [x], last, h, S => by
    simp only [ITree.famInsIdxAux]
    split <;> exact (V.idx S)
  | fuel + 1, x :: y :: fam, last, h, S => by
    simp only [ITree.famInsIdxAux]
    split
    · exact S
    · split
      · split
        · exact V.famInsIdxAux k fuel _ _ (V.idx S)
        · exact V.famInsIdxAux k fuel _ _ (V.idx S)
      · exact (V.idx S)
      · exact (V.idx S)
theorem Frm.famInsIdx (V : Frm I Ok) (S : I h) {fam : List Id} {k : Int} : I (ITree.famInsIdx h fam k).1 :=
  V.famInsIdxAux k _ fam 0 S

/-! ### placing -/

variable {q : Id}

theorem Frm.appendItem (V : Frm I Ok) (S : I h) {x : Id} (hq : Ok q) : I (ITree.appendItem h q x) := by
  unfold ITree.appendItem
  still

theorem Frm.appendItemLeft (V : Frm I Ok) (S : I h) {x : Id} (hq : Ok q) : I (ITree.appendItemLeft h q x) := by
  unfold ITree.appendItemLeft
  still

theorem Frm.prepItem (V : Frm I Ok) (S : I h) {a : Arg} : I (ITree.prepItem h a).1 := by
  unfold ITree.prepItem
  split
  · still
  · exact (V.alloc S _).1

theorem Frm.append (V : Frm I Ok) (S : I h) {a : Arg} : I (ITree.append h q a).1 := by
  unfold ITree.append
  by_cases hq : ¬ Ok q
  · rw [guardAppend_locked (V.locked S hq)]; exact S
  · have hq := not_not.1 hq
    split
    · exact S
    · have A := V.prepItem S (a := a)
      simp only
      split
      · exact A
      · exact V.appendItem A hq

theorem Frm.appendLeft (V : Frm I Ok) (S : I h) {a : Arg} : I (ITree.appendLeft h q a).1 := by
  unfold ITree.appendLeft
  by_cases hq : ¬ Ok q
  · rw [guardPlace_locked (V.locked S hq)]; exact S
  · have hq := not_not.1 hq
    split
    · exact S
    · have A := V.prepItem S (a := a)
      simp only
      split
      · exact A
      · split
        · exact V.appendItem A hq
        · exact V.appendItemLeft A hq

theorem Frm.insertAt (V : Frm I Ok) (S : I h) {x : Id} {k : Int} (hq : Ok q) : I (ITree.insertAt h q x k).1 := by
  unfold ITree.insertAt
  split
  · exact V.appendItemLeft S hq
  · have A := V.setItems S (l := pyInsert (h.kids q) k x) hq
    simp only
    split
    · still
    · have B := V.famInsIdx A (fam := ‹_›) (k := k)
      still

theorem Frm.insertPos (V : Frm I Ok) (S : I h) {tg : Target} : I (ITree.insertPos h q tg).1 := by
  unfold ITree.insertPos
  split
  · exact S
  · exact S
  · split
    · exact S
    · exact S
    · next y hy =>
      simp only
      split <;> exact (V.idx S)

theorem Frm.insert (V : Frm I Ok) (S : I h) {tg : Option Target} {a : Arg} : I (ITree.insert h q tg a).1 := by
  unfold ITree.insert
  split
  · exact (V.append S)
  · by_cases hq : ¬ Ok q
    · rw [guardPlace_locked (V.locked S hq)]; exact S
    · have hq := not_not.1 hq
      split
      · exact S
      · have A := V.prepItem S (a := a)
        simp only
        split
        · exact A
        · split
          · exact V.appendItem A hq
          · have B := V.insertPos A (q := q) (tg := ‹Target›)
            split
            · exact B
            · exact V.insertAt B hq

/-! ### copies and extend -/

mutual
theorem Frm.buildKids (V : Frm I Ok) : ∀ (ts : List Tree) {h : Heap} {q : Id}, I h → Ok q → I (ITree.buildKids h q ts)
  | [], h, q, S, hq => by simpa [ITree.buildKids] using S
  | k :: rest, h, q, S, hq => by
    simp only [ITree.buildKids]
    exact V.buildKids rest (V.buildOne k S hq) hq
theorem Frm.buildOne (V : Frm I Ok) : ∀ (t : Tree) {h : Heap} {q : Id}, I h → Ok q → I (ITree.buildOne h q t)
  | .node i t v f l ks, h, q, S, hq => by
    have A := V.alloc S (copyNode (.node i t v f l ks))
    simp only [ITree.buildOne]
    exact V.buildKids ks (V.appendItem A.1 hq) A.2
end

theorem Frm.copyItem (V : Frm I Ok) (S : I h) (x : Id) : I (ITree.copyItem h x).1 ∧ Ok (ITree.copyItem h x).2 := by
  have A := V.alloc S (copyNode (h.tree x))
  unfold ITree.copyItem build
  exact ⟨V.buildKids _ A.1 A.2, A.2⟩

theorem Frm.extendOne (V : Frm I Ok) (S : I h) {idx : Nat} {a : Arg} (hq : Ok q) : I (ITree.extendOne h q idx a) := by
  unfold ITree.extendOne
  simp only
  refine V.setItems (V.setParent (V.setFams ?_ hq)) hq
  split
  · split
    · exact (V.copyItem S _).1
    · exact S
  · exact (V.alloc S _).1

theorem Frm.extendLoop (V : Frm I Ok) (hq : Ok q) : ∀ (as : List Arg) (idx : Nat) {h : Heap}, I h → I (ITree.extendLoop h q idx as)
  | [], idx, h, S => by simpa [ITree.extendLoop] using S
  | a :: as, idx, h, S => by
    simp only [ITree.extendLoop]
    exact V.extendLoop hq as _ (V.extendOne S hq)

theorem Frm.iterExtend (V : Frm I Ok) (S : I h) {as : List Arg} (hq : Ok q) : I (ITree.iterExtend h q as) := by
  unfold ITree.iterExtend
  simp only
  split
  · exact V.extendLoop hq _ _ (V.plain S hq)
  · exact V.extendLoop hq _ _ S

theorem guardExtend_locked {p : Id} (L : TreeLocked h p) (as : List Arg) : guardExtend h p as = some .permission := by
  obtain ⟨a, b⟩ := locked_prot L; simp [guardExtend, a, b]
theorem guardExtendLeft_locked {p : Id} (L : TreeLocked h p) (as : List Arg) : guardExtendLeft h p as = some .permission := by
  obtain ⟨a, b⟩ := locked_prot L; simp [guardExtendLeft, a, b]

theorem Frm.extend (V : Frm I Ok) (S : I h) {as : List Arg} : I (ITree.extend h q as).1 := by
  unfold ITree.extend
  by_cases hq : ¬ Ok q
  · rw [guardExtend_locked (V.locked S hq)]; exact S
  · have hq := not_not.1 hq
    split
    · exact S
    · exact V.iterExtend S hq

theorem Frm.extendTree (V : Frm I Ok) (S : I h) {u : Id} : I (ITree.extendTree h q u).1 := by
  unfold ITree.extendTree
  by_cases hq : ¬ Ok q
  · simp only; rw [guardExtend_locked (V.locked S hq)]; exact S
  · have hq := not_not.1 hq
    simp only
    split
    · exact S
    · split
      · exact V.iterExtend (V.copyItem S u).1 hq
      · exact V.iterExtend S hq

theorem Frm.orphan (V : Frm I Ok) : ∀ (l : List Id) {h : Heap}, I h → I (ITree.orphan h l)
  | [], h, S => by simpa [ITree.orphan] using S
  | x :: xs, h, S => by
    simp only [ITree.orphan]
    exact V.orphan xs (V.setParent S)

theorem Frm.extendLeft (V : Frm I Ok) (S : I h) {as : List Arg} : I (ITree.extendLeft h q as).1 := by
  unfold ITree.extendLeft
  by_cases hq : ¬ Ok q
  · rw [guardExtendLeft_locked (V.locked S hq)]; exact S
  · have hq := not_not.1 hq
    split
    · exact S
    · exact V.iterExtend (V.plain (V.orphan _ S) hq) hq

/-! ### delete -/

theorem Frm.dropFromFamily (V : Frm I Ok) (S : I h) {x : Id} (hq : Ok q) : I (ITree.dropFromFamily h q x).1 := by
  unfold ITree.dropFromFamily
  simp only
  still

theorem Frm.uncover (V : Frm I Ok) (S : I h) {x y : Id} {k : Int} (hq : Ok q) : I (ITree.uncover h q x y k).1 := by
  unfold ITree.uncover
  have A := V.tagIdx S (x := x)
  simp only
  still

theorem Frm.delInt (V : Frm I Ok) (S : I h) {k : Int} : I (ITree.delInt h q k).1 := by
  unfold ITree.delInt
  by_cases hq : ¬ Ok q
  · rw [guardDel_locked (V.locked S hq)]; exact S
  · have hq := not_not.1 hq
    split
    · exact S
    · split
      · exact S
      · split
        · exact S
        · next pos _ =>
          split
          · exact S
          · next x hx =>
            have A := V.setItems S (l := (h.kids q).eraseIdx pos) hq
            split
            · exact S
            · simp only
              split
              · split
                · exact A
                · exact V.uncover A hq
              · exact V.dropFromFamily A hq

theorem Frm.delByItem (V : Frm I Ok) (S : I h) {x : Id} : I (ITree.delByItem h q x).1 := by
  unfold ITree.delByItem
  have A := V.idx S (x := x)
  simp only
  split
  · exact A
  · exact A
  · exact (V.delInt A)

theorem Frm.delMany (V : Frm I Ok) : ∀ (l : List Id) {h : Heap}, I h → I (ITree.delMany h q l).1
  | [], h, S => by simpa [ITree.delMany] using S
  | x :: xs, h, S => by
    have A := V.delByItem S (q := q) (x := x)
    simp only [ITree.delMany]
    split
    · exact A
    · have B := V.delMany xs A
      split <;> exact B

theorem Frm.delSlice (V : Frm I Ok) (S : I h) {s : PySlice} : I (ITree.delSlice h q s).1 := by
  unfold ITree.delSlice
  by_cases hq : ¬ Ok q
  · rw [guardDel_locked (V.locked S hq)]; exact S
  · have hq := not_not.1 hq
    simp only
    still

theorem Frm.delItem (V : Frm I Ok) (S : I h) {tg : Target} : I (ITree.delItem h q tg).1 := by
  unfold ITree.delItem
  split
  · exact (V.delInt S)
  · exact (V.delSlice S)
  · split
    · exact S
    · split
      · exact S
      · split
        · exact S
        · exact (V.delByItem S)
        · exact V.delMany _ S

theorem Frm.remove (V : Frm I Ok) (S : I h) {x : Id} : I (ITree.remove h q x).1 := by
  unfold ITree.remove
  split
  · exact (V.delByItem S)
  · exact S


/-! ### replace, move, rename -/

theorem Frm.prepSet (V : Frm I Ok) (S : I h) {a : Arg} : I (ITree.prepSet h q a).1 := by
  unfold ITree.prepSet
  split
  · split
    · exact S
    · split
      · exact (V.copyItem S _).1
      · exact S
  · exact (V.alloc S _).1

theorem Frm.replaceChild (V : Frm I Ok) (S : I h) {old x : Id} (hq : Ok q) : I (ITree.replaceChild h q old x).1 := by
  unfold ITree.replaceChild
  have A := V.idx S (x := old)
  simp only
  split
  · exact A
  · exact A
  · next k _ =>
    have B := V.tagIdx A (x := old)
    generalize (((h.idx old).1).tagIdx old) = r2 at B ⊢
    obtain ⟨h0, e⟩ := r2
    dsimp only at B ⊢
    split
    · exact B
    · exact B
    · exact B
    · next oT oI =>
      have C := V.setParent B (x := old) (r := none)
      generalize h0.setParent old none = h1 at C ⊢
      have D := V.setItems C (l := pySet (h1.kids q) k x) hq
      generalize h1.setItems q (pySet (h1.kids q) k x) = h2 at D ⊢
      split
      · still
      · generalize (((h2.boundFams q).getD []).set oT (pyDel ((((h2.boundFams q).getD []).get? oT).getD []) oI)) = F1
        have E := V.setFams D (F := F1) hq
        generalize h2.setFams q F1 = h3 at E ⊢
        split
        · still
        · next fam hf =>
          have G := V.famInsIdx E (fam := fam) (k := k)
          generalize ITree.famInsIdx h3 fam k = q at G ⊢
          still

theorem Frm.dropItems (V : Frm I Ok) (hq : Ok q) : ∀ (l : List Id) {h : Heap}, I h → I (ITree.dropItems h q l).1
  | [], h, S => by simpa [ITree.dropItems] using S
  | x :: xs, h, S => by
    have A := V.idx S (x := x)
    simp only [ITree.dropItems]
    split
    · exact A
    · exact A
    · exact V.dropItems hq xs (V.setItems A hq)

theorem Frm.replaceFamily (V : Frm I Ok) (S : I h) {x : Id} (hq : Ok q) : I (ITree.replaceFamily h q x).1 := by
  unfold ITree.replaceFamily
  simp only
  split
  · exact (V.append S)
  · split
    · exact S
    · split
      · exact S
      · next f rest _ _ =>
        have A := V.idx S (x := f)
        split
        · exact A
        · exact A
        · have B := V.dropItems hq rest.reverse A
          generalize ITree.dropItems (h.idx f).1 q rest.reverse = r at B ⊢
          still

theorem Frm.ite (V : Frm I Ok) {α : Type} {b : Bool} {A B : Res α} (hP : I A.1) (hQ : b = false → I B.1) : I (if b then A else B).1 := by
  cases b
  · exact hQ rfl
  · exact hP

theorem Frm.setItem (V : Frm I Ok) (S : I h) {tg : Target} {a : Arg} : I (ITree.setItem h q tg a).1 := by
  unfold ITree.setItem
  split
  · exact S
  · next hg =>
    have hq : Ok q := by
      by_contra hn
      rw [guardPlace_locked (V.locked S hn)] at hg
      cases hg
    split
    · exact S
    · next old hold =>
      apply V.ite
      · exact S
      · intro _
        have A := V.prepSet S (q := q) (a := a)
        simp only
        split
        · exact A
        · next x hx =>
          generalize (ITree.prepSet h q a).1 = h1 at A ⊢
          split
          · split
            · have B := V.delItem A (q := q) (tg := Target.ofTag (h1.tag x))
              split
              · exact B
              · exact (V.append B)
            · exact (V.append A)
          · split
            · exact V.replaceFamily A hq
            · split
              · exact A
              · exact V.replaceChild A hq

theorem Frm.move (V : Frm I Ok) (S : I h) {x : Id} {tg : Option Target} : I (ITree.move h x tg).1 := by
  unfold ITree.move
  split
  · exact S
  · next r hr =>
    simp only
    apply V.ite
    · exact S
    · intro _
      split
      · have A := V.delByItem S (q := r.pid) (x := x)
        split
        · exact A
        · exact (V.append A)
      · have A := V.delByItem S (q := r.pid) (x := x)
        split
        · exact A
        · exact (V.insert A)
      · split
        · exact S
        · exact S
        · next y hy =>
          have B := V.idx S (x := y)
          split
          · exact B
          · exact B
          · have A := V.delByItem B (q := r.pid) (x := x)
            split
            · exact A
            · exact (V.insert A)

theorem Frm.rename (V : Frm I Ok) (S : I h) {x : Id} {g : Tag} (ht : ∀ h, I h → I (h.modify x fun n => { n with tag := g })) : I (ITree.rename h x g).1 := by
  unfold ITree.rename
  split
  · exact ht _ S
  · next r hr =>
    simp only
    apply V.ite
    · exact S
    · intro hb
      have hq : Ok r.pid := by
        by_contra hn
        obtain ⟨a, b⟩ := locked_prot (V.locked S hn)
        simp [a, b] at hb
      split
      · exact S
      · next F hF =>
        split
        · exact S
        · split
          · exact S
          · next F1 hF1 =>
            have A := ht _ (V.setFams S (F := F1) hq)
            generalize (h.setFams r.pid F1).modify x (fun n => { n with tag := g }) = h1 at A ⊢
            split
            · still
            · next nf hnf =>
              have B := V.idx A (x := x)
              split
              · exact B
              · exact B
              · next k _ =>
                have C := V.famInsIdx B (fam := nf) (k := k)
                still

/-! ### reorder -/

theorem Frm.reverse (V : Frm I Ok) (S : I h) : I (ITree.reverse h q).1 := by
  unfold ITree.reverse
  by_cases hq : ¬ Ok q
  · rw [guardReorder_locked (V.locked S hq)]; exact S
  · have hq := not_not.1 hq
    still

theorem Frm.popMany (V : Frm I Ok) {k : Int} : ∀ (m : Nat) {h : Heap}, I h → I (ITree.popMany h q k m).1
  | 0, h, S => by simpa [ITree.popMany] using S
  | m + 1, h, S => by
    have A := V.delInt S (q := q) (k := k)
    have B := V.popMany (k := k) m A
    simp only [ITree.popMany]
    split
    · exact A
    · split <;> exact B

theorem Frm.rotate (V : Frm I Ok) (S : I h) {m : Int} : I (ITree.rotate h q m).1 := by
  unfold ITree.rotate
  split
  · exact S
  · exact S
  · split
    · have A := V.popMany (q := q) (k := -1) m.toNat S
      simp only
      split
      · exact A
      · exact (V.extendLeft A)
    · split
      · have A := V.popMany (q := q) (k := 0) (-m).toNat S
        simp only
        split
        · exact A
        · exact (V.extend A)
      · exact S

theorem Frm.sort (V : Frm I Ok) (S : I h) {key : Id → Int} {rev : Bool} : I (ITree.sort h q key rev).1 := by
  unfold ITree.sort
  by_cases hq : ¬ Ok q
  · rw [guardReorder_locked (V.locked S hq)]; exact S
  · have hq := not_not.1 hq
    split
    · exact S
    · exact S
    · exact V.extend (V.plain S hq)

theorem Frm.clear (V : Frm I Ok) (S : I h) {k : Bool} (hc : Ok q → ∀ h f, (∀ n, ClearLike k (f n) n) → I h → I (h.modify q f)) : I (ITree.clear h q k).1 := by
  unfold ITree.clear
  by_cases hq : ¬ Ok q
  · obtain ⟨a, b⟩ := locked_prot (V.locked S hq)
    simp [a, b]
    exact S
  · have hc := hc (not_not.1 hq)
    split
    · exact S
    · have A : I (if h.isLinkRoot q then h.modify q fun n => { n with link := n.link.map fun l => { l with loaded := true } } else h) := by
        split
        · exact hc _ _ (fun _ => ⟨rfl, rfl, fun _ => rfl⟩) S
        · exact S
      simp only
      generalize (if h.isLinkRoot q then h.modify q fun n => { n with link := n.link.map fun l => { l with loaded := true } } else h) = h1 at A ⊢
      split
      · exact A
      · dsimp only
        split
        · exact hc _ _ (fun _ => ⟨rfl, rfl, fun _ => rfl⟩) A
        · exact hc _ _ (fun _ => ⟨rfl, rfl, fun e => absurd e ‹_›⟩) (hc _ _ (fun _ => ⟨rfl, rfl, fun _ => rfl⟩) A)

/-! ### flags -/

theorem Frm.setFlags1 (V : Frm I Ok) (S : I h) {x : Id} {f : Flags} (hf : f.has Flags.linkRoot = false) : I (ITree.setFlags1 h x f).1 := by
  unfold ITree.setFlags1
  split
  · exact S
  · exact V.grow hf S
theorem Frm.setFlagsAll (V : Frm I Ok) {f : Flags} (hf : f.has Flags.linkRoot = false) : ∀ (l : List Id) {h : Heap}, I h → I (ITree.setFlagsAll h f l).1
  | [], h, S => by simpa [ITree.setFlagsAll] using S
  | x :: xs, h, S => by
    have A := V.setFlags1 S (x := x) hf
    simp only [ITree.setFlagsAll]
    split
    · exact A
    · exact V.setFlagsAll hf xs A
theorem Frm.setFlagsInit (V : Frm I Ok) {f : Flags} (hf : f.has Flags.linkRoot = false) : ∀ (l : List Id) {h : Heap}, I h → I (ITree.setFlagsInit h f l)
  | [], h, S => by simpa [ITree.setFlagsInit] using S
  | x :: xs, h, S => by
    simp only [ITree.setFlagsInit]
    exact V.setFlagsInit hf xs (V.grow hf S)
theorem Frm.unsetFlagsOp (S : I h) {x : Id} {f : Flags} (hu : ∀ h (g : Flags → Flags), I h → I (h.modify x fun n => { n with flags := g n.flags })) : I (ITree.unsetFlagsOp h x f).1 := by
  unfold ITree.unsetFlagsOp
  split
  · exact S
  · exact hu h (unsetFlags · f) S

/-! ### new items -/

theorem Frm.initLoop (V : Frm I Ok) {f : Flags} (hf : f.has Flags.linkRoot = false) (hq : Ok q) : ∀ (as : List Arg) (idx : Nat) {h : Heap}, I h → I (ITree.initLoop h q idx f as)
  | [], idx, h, S => by simpa [ITree.initLoop] using S
  | a :: as, idx, h, S => by
    have A := V.extendOne S (idx := idx) (a := a) hq
    simp only [ITree.initLoop, ITree.initStep]
    generalize ITree.extendOne h q idx a = h1 at A ⊢
    refine V.initLoop hf hq as _ ?_
    split
    · split
      · exact A
      · exact V.setFlagsInit hf _ A
    · exact A

theorem deepMask_noRoot (f : Flags) : (f &&& Flags.deepMask).has Flags.linkRoot = false := by revert f; decide

theorem Frm.newItem (V : Frm I Ok) (S : I h) {t : Tag} {v : Val} {sub : List Arg} {f : Flags} : I (ITree.newItem h t v sub f).1 := by
  have A := V.alloc S { tag := t, value := v, flags := f }
  unfold ITree.newItem
  simp only
  generalize h.alloc { tag := t, value := v, flags := f } = r at A ⊢
  split
  · exact A.1
  · exact V.initLoop (deepMask_noRoot f) A.2 _ _ (V.plain A.1 A.2)

theorem Frm.newLink (V : Frm I Ok) (S : I h) {t : Tag} {v : Val} {sub : List Arg} {f : Flags} {file : Option String} {path : List Tag} :
    I (ITree.newLink h t v sub f file path).1 := by
  have A := V.newItem S (t := t) (v := v) (sub := sub) (f := f)
  unfold ITree.newLink
  dsimp only
  exact V.new S A (Nat.le_refl _)

/-! ### histories -/

/-- one call; the hypotheses say what the call may do to the objects the invariant speaks about -/
theorem Frm.step (V : Frm I Ok) (ms : ModelSet) (S : I h) (c : Call) 
    (hval : ∀ x, c.writesValue = some x → (h.flags x).has Flags.readOnlyValue = false → ∀ v, I (h.setVal x v))
    (htag : ∀ x g, c = .rename x g → ∀ h, I h → I (h.modify x fun n => { n with tag := g }))
    (hclr : ∀ x k, c = .clear x k → Ok x → ∀ h f, (∀ n, ClearLike k (f n) n) → I h → I (h.modify x f))
    (huns : ∀ x, c.unsets = some x → ∀ h (g : Flags → Flags), I h → I (h.modify x fun n => { n with flags := g n.flags })) : I (ITree.step ms h c).1 := by
  cases c with
  | new t v sub f => exact (V.newItem S)
  | newLink t v sub f file path => exact (V.newLink S)
  | append q a => exact (V.append S)
  | appendLeft q a => exact (V.appendLeft S)
  | insert q tg a => exact (V.insert S)
  | extend q as => exact (V.extend S)
  | extendTree q u => exact (V.extendTree S)
  | extendLeft q as => exact (V.extendLeft S)
  | del q tg => exact (V.delItem S)
  | remove q x => exact (V.remove S)
  | setItem q tg a => exact (V.setItem S)
  | move x tg => exact (V.move S)
  | rename x g => exact V.rename S (htag x g rfl)
  | reverse q => exact (V.reverse S)
  | rotate q m => exact (V.rotate S)
  | sort q k r => exact (V.sort S)
  | clear q k => exact V.clear S (hclr q k rfl)
  | copy x => exact (V.copyItem S x).1
  | setTreeReadOnly x => exact V.setFlagsAll (by decide) _ S
  | unsetTreeReadOnly x =>
    simp only [ITree.step, ITree.unsetTreeReadOnly]
    split
    · split
      · exact S
      · exact Frm.unsetFlagsOp S (huns x rfl)
    · exact Frm.unsetFlagsOp S (huns x rfl)
  | setValueReadOnly x => exact V.setFlags1 S (by decide)
  | unsetValueReadOnly x => exact Frm.unsetFlagsOp S (huns x rfl)
  | setValue x v =>
    simp only [ITree.step, Res.void, ITree.setValue]
    split
    · exact S
    · next hn =>
      split
      · exact hval x rfl (noVal hn) _
      · exact S
  | setKeyValue x k v =>
    simp only [ITree.step, Res.void, ITree.setKeyValue]
    split
    · exact S
    · next hn =>
      split
      · exact hval x rfl (noVal hn) _
      · exact S
  | delValue x =>
    simp only [ITree.step, Res.void, ITree.delValue]
    split
    · exact S
    · next hn => exact hval x rfl (by simpa using hn) _
  | delKeyValue x k =>
    simp only [ITree.step, Res.void, ITree.delKeyValue]
    split
    · exact S
    · next hn =>
      split
      · exact hval x rfl (by simpa using hn) _
      · exact S
  | readIdx x => exact (V.idx S)
  | readTagIdx x => exact (V.tagIdx S)

theorem Frm.forEach (V : Frm I Ok) {P : Id → Prop} {f : Heap → Id → Res Unit} (H : ∀ h x, P x → I h → I (f h x).1) : ∀ (l : List Id) {h : Heap}, (∀ x ∈ l, P x) → I h → I (ITree.forEach f h l).1
  | [], h, _, S => S
  | x :: xs, h, hl, S => by
    have A := H h x (hl x (by simp)) S
    simp only [ITree.forEach]
    split
    · exact A
    · exact V.forEach H xs (fun y hy => hl y (by simp [hy])) A

theorem Frm.deepReverse (V : Frm I Ok) (m : Nat) : ∀ (h : Heap) (x : Id), I h → I (ITree.deepReverse m h x).1 := by
  induction m with
  | zero => intro h x S; exact S
  | succ m ih =>
    intro h x S
    simp only [ITree.deepReverse]
    split
    · exact S
    · exact S
    · split
      · exact S
      · have A := V.reverse S (q := x)
        split
        · exact A
        · exact V.forEach (P := fun _ => True) (fun h x _ => ih h x) _ (fun _ _ => trivial) A

theorem Frm.deepSort (V : Frm I Ok) (key : Heap → Id → Int) (rev : Bool) (m : Nat) : ∀ (h : Heap) (x : Id), I h → I (ITree.deepSort key rev m h x).1 := by
  induction m with
  | zero => intro h x S; exact S
  | succ m ih =>
    intro h x S
    simp only [ITree.deepSort]
    split
    · exact S
    · exact S
    · have A := V.sort S (q := x) (key := key h) (rev := rev)
      split
      · exact A
      · exact V.forEach (P := fun _ => True) (fun h x _ => ih h x) _ (fun _ _ => trivial) A

theorem Frm.removeFromParent (V : Frm I Ok) (S : I h) {x : Id} : I (ITree.removeFromParent h x).1 := by
  unfold ITree.removeFromParent
  split
  · exact S
  · exact (V.remove S)

theorem Frm.removeElems (V : Frm I Ok) : ∀ (es : List Elem) {h : Heap}, I h → I (ITree.removeElems h es).1
  | [], h, S => S
  | .list _ :: _, h, S => S
  | .item x :: es, h, S => by
    have A := V.removeFromParent S (x := x)
    simp only [ITree.removeElems]
    split
    · exact A
    · exact V.removeElems es A

theorem Frm.deepRemove (V : Frm I Ok) (S : I h) (t : Target) (ts : List Target) : I (ITree.deepRemove h q t ts).1 := by
  unfold ITree.deepRemove
  split
  · exact S
  · next x hx =>
    have A := V.removeFromParent S (x := x)
    simp only; split <;> exact A
  · next es hx =>
    have A := V.removeElems es S
    simp only; split <;> exact A

theorem Frm.writePos (V : Frm I Ok) (c : Cache) : ∀ (l : List Id) {h : Heap} (i : Nat), I h → I (ITree.writePos c h l i).1
  | [], h, _, S => S
  | y :: ys, h, i, S => by
    simp only [ITree.writePos]
    split
    · exact S
    · split
      · exact S
      · exact V.writePos c ys (i + 1) (V.setParent S)

theorem Frm.writeFams (V : Frm I Ok) : ∀ (F : Fams) {h : Heap}, I h → I (ITree.writeFams h F).1
  | [], h, S => S
  | e :: F, h, S => by
    have A := V.writePos .fam e.2 0 S
    simp only [ITree.writeFams]
    split
    · exact A
    · exact V.writeFams F A

theorem Frm.forceCache (V : Frm I Ok) (S : I h) {x : Id} (i f a : Bool) : I (ITree.forceCache h x i f a).1 := by
  unfold ITree.forceCache
  split
  · exact S
  · next r hr =>
    have A : I (if i then ITree.writePos .abs h (h.kids r.pid) 0 else (h, .ok ())).1 := by
      split
      · exact V.writePos _ _ _ S
      · exact S
    simp only
    split
    · exact A
    · split
      · split
        · exact A
        · split
          · exact A
          · exact V.writePos _ _ _ A
      · split
        · split
          · exact A
          · exact V.writeFams _ A
        · exact A

theorem Frm.removeLoop (V : Frm I Ok) : ∀ (l : List Id) {h : Heap}, I h → I (ITree.removeLoop h q l).1
  | [], h, S => S
  | x :: xs, h, S => by
    have A := V.delByItem S (q := q) (x := x)
    simp only [ITree.removeLoop]
    split
    · exact A
    · exact A
    · exact A
    · exact V.removeLoop xs A

theorem Frm.removeMany (V : Frm I Ok) (S : I h) {l : List Id} : I (ITree.removeMany h q l).1 := by
  unfold ITree.removeMany
  split
  · exact S
  · exact V.removeLoop _ S

theorem Frm.clearLocalLoop (V : Frm I Ok) : ∀ (m : Nat) {h : Heap} (i : Nat) (add : Bool) (td : List (Tag × Int)), I h → I (ITree.clearLocalLoop q m h i add td).1
  | 0, h, _, _, _, S => S
  | m + 1, h, i, add, td, S => by
    simp only [ITree.clearLocalLoop]
    split
    · exact S
    · next x hx =>
      split
      · exact S
      · split
        · exact S
        · next r hr =>
          split
          · exact S
          · split
            · exact V.clearLocalLoop m _ _ _ (V.setParent S)
            · split
              · exact V.clearLocalLoop m _ _ _ (V.setParent S)
              · rename_i k td' _ _ _ _ _
                have B := V.delByItem (V.setParent S (x := x) (r := some (r.setC .fam k))) (q := q) (x := x)
                split
                · exact B
                · exact V.clearLocalLoop m _ _ _ B

theorem Frm.clearLocal (V : Frm I Ok) (S : I h) (k : Bool) (hc : Ok q ∨ h.isLinkRoot q = true → ∀ h f, (∀ n, ClearLike k (f n) n) → I h → I (h.modify q f)) : I (ITree.clearLocal h q k).1 := by
  unfold ITree.clearLocal
  split
  · have A := V.clearLocalLoop (q := q) ((h.kids q).length + 1) 0 false ((h.kids q).map fun c => (h.tag c, -1)) S
    unfold clearLocalRoot
    simp only
    split
    · exact A
    · split
      · exact A
      · exact hc (.inr ‹_›) _ (fun n => { n with value := .noValue }) (fun _ => ⟨rfl, rfl, fun e => absurd e ‹_›⟩) A
  · exact V.clear S fun o => hc (.inl o)

theorem Frm.newFrom (V : Frm I Ok) (S : I h) {t : Tag} {v : Val} {sub : List Arg} {f : Flags} : I (ITree.newFrom h t v sub f).1 := by
  have B := V.alloc S { tag := t, value := v, flags := f, fams := some [] }
  exact V.initLoop (deepMask_noRoot f) B.2 _ _ B.1

theorem Frm.copyAll (V : Frm I Ok) : ∀ (l : List Id) {h : Heap}, I h → I (ITree.copyAll h l).1
  | [], h, S => S
  | x :: xs, h, S => V.copyAll xs (V.copyItem S x).1

mutual
theorem Frm.rebuild (V : Frm I Ok) : ∀ (s : Shape) {h : Heap}, I h → I (ITree.rebuild h s).1
  | .node t v f l ks, h, S => by
    have A := V.rebuildL ks S
    simp only [ITree.rebuild, heapBuilder]
    cases l with
    | none =>
      have B := V.newItem A (t := t) (v := v) (f := f) (sub := (ITree.rebuildL h ks).2.map Arg.item)
      have e := newItem_fst (ITree.rebuildL h ks).1 t v ((ITree.rebuildL h ks).2.map Arg.item) f
      dsimp only
      generalize ITree.newItem (ITree.rebuildL h ks).1 t v ((ITree.rebuildL h ks).2.map Arg.item) f = r at B e ⊢
      obtain ⟨h', o⟩ := r
      simp only at e; subst e
      exact B
    | some lk =>
      have B := V.newLink A (t := t) (v := v) (f := f) (file := lk.file) (path := lk.path) (sub := (ITree.rebuildL h ks).2.map Arg.item)
      have e : (ITree.newLink (ITree.rebuildL h ks).1 t v ((ITree.rebuildL h ks).2.map Arg.item) f lk.file lk.path).2 = .ok (ITree.rebuildL h ks).1.next :=
        newItem_fst (ITree.rebuildL h ks).1 t v ((ITree.rebuildL h ks).2.map Arg.item) f
      dsimp only
      generalize ITree.newLink (ITree.rebuildL h ks).1 t v ((ITree.rebuildL h ks).2.map Arg.item) f lk.file lk.path = r at B e ⊢
      obtain ⟨h', o⟩ := r
      simp only at e; subst e
      exact B
theorem Frm.rebuildL (V : Frm I Ok) : ∀ (l : List Shape) {h : Heap}, I h → I (ITree.rebuildL h l).1
  | [], h, S => S
  | k :: ks, h, S => V.rebuildL ks (V.rebuild k S)
end

theorem Frm.more (V : Frm I Ok) (S : I h) (m : More) (hclr : ∀ x k, m = .clearLocal x k → Ok x ∨ h.isLinkRoot x = true → ∀ h f, (∀ n, ClearLike k (f n) n) → I h → I (h.modify x f))
    (huns : ∀ x ∈ m.unsetTargets h, ∀ h (g : Flags → Flags), I h → I (h.modify x fun n => { n with flags := g n.flags })) : I (ITree.more h m) := by
  cases m with
  | deepReverse m x => exact V.deepReverse m h x S
  | deepSort key rev m x => exact V.deepSort key rev m h x S
  | deepRemove q t ts => exact V.deepRemove S t ts
  | deepUnsetTreeReadOnly x f hier =>
    simp only [ITree.more, ITree.deepUnsetTreeReadOnly]
    split
    · exact S
    · exact V.forEach (P := (· ∈ flagTargets h x f hier)) (fun h y hy S => Frm.unsetFlagsOp S (huns y hy)) _ (fun y hy => hy) S
  | deepUnsetValueReadOnly x f hier =>
    simp only [ITree.more, ITree.deepUnsetValueReadOnly]
    split
    · exact S
    · exact V.forEach (P := (· ∈ flagTargets h x f hier)) (fun h y hy S => Frm.unsetFlagsOp S (huns y hy)) _ (fun y hy => hy) S
  | deepSetValueReadOnly x f hier =>
    simp only [ITree.more, ITree.deepSetValueReadOnly]
    split
    · exact S
    · exact V.forEach (P := fun _ => True) (fun h x hx S => V.setFlags1 S (by decide)) _ (fun _ _ => trivial) S
  | forceCache x i f a => exact V.forceCache S i f a
  | removeMany q l => exact V.removeMany S
  | clearLocal q k => exact V.clearLocal S k (hclr q k rfl)
  | add t u =>
    simp only [ITree.more, addItems]
    split
    · exact S
    · exact V.newFrom (V.copyAll _ S)
  | mul t k => exact V.newFrom (V.copyItem S t).1
  | mulTree t u =>
    simp only [ITree.more, ITree.mulTree]
    split
    · exact S
    · exact V.newFrom (V.copyAll _ (V.copyAll _ S))
  | rmul k t => exact V.newFrom (V.copyItem S t).1
  | build s => exact V.rebuild s S

end

/-! ### invariants of one object -/

/-- item `p` exists and its object satisfies `P` -/
def NodeHas (p : Id) (P : Node → Prop) (h : Heap) : Prop := p < h.next ∧ P (h.node p)

section
variable {p : Id} {P : Node → Prop} {h : Heap}

theorem NodeHas.modify (S : NodeHas p P h) {q : Id} {f : Node → Node} (hf : q = p → P (h.node p) → P (f (h.node p))) : NodeHas p P (h.modify q f) := by
  refine ⟨S.1, ?_⟩
  by_cases e : p = q
  · subst e
    have e' : (h.modify p f).node p = f (h.node p) := by simp [Heap.modify]
    rw [e']; exact hf rfl S.2
  · have e' : (h.modify q f).node p = h.node p := by simp only [Heap.modify]; exact if_neg e
    rw [e']; exact S.2

theorem NodeHas.frm (hpar : ∀ n r, P n → P { n with parent := r }) (hk : ∀ m n, OnlyKids m n → P n → P m)
    (hg : ∀ n (f : Flags), f.has Flags.linkRoot = false → P n → P { n with flags := n.flags ||| f }) : Frm (NodeHas p P) (fun _ => True) where
  parent S := S.modify fun _ => hpar _ _
  kids S _ hf := S.modify fun _ => hk _ _ (hf _)
  alloc' {h} m S := by
    refine ⟨⟨Nat.lt_succ_of_lt S.1, ?_⟩, trivial⟩
    have e' : (h.alloc m).1.node p = h.node p := by simp only [Heap.alloc]; exact if_neg (Nat.ne_of_lt S.1)
    rw [e']; exact S.2
  grow hf S := S.modify fun _ => hg _ _ hf
  new S0 S hq := S.modify fun e => by have := S0.1; omega
  locked S hq := absurd trivial hq

end

end ITree
