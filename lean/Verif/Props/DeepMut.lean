import Verif.Proofs.DeepMut
import Verif.Props.Getter
import Verif.Props.Protect
import Verif.Props.Deep
/-
C54: `deep.reverse`, `deep.sort`, `deep.remove`.  C55: the in-depth flag calls.
-/
namespace ITree

/-- C54. `t.deep.reverse()` on a tree without protected items: the tree becomes its mirror image – the same items, the children of every item in the opposite
order – nothing else changes, and the result is again a consistent state.  `n` is the number of nested calls Python allows; the depth of the tree must not exceed it. -/
theorem C54_deep_reverse {ms : ModelSet} {h : Heap} (R : Reach ms h) {x : Id} (hx : x < h.next) (hpr : ∀ y, Below h x y → h.isProtected y = false)
    {n : Nat} (hn : (h.tree x).depth ≤ n) :
    ∃ h', deepReverse n h x = (h', .ok ()) ∧ h'.tree x = (h.tree x).mirror ∧ (∀ y, Below h x y → h'.kids y = (h.kids y).reverse) ∧
      Frame h h' (Below h x) (fun _ => False) ∧ Reach ms h' ∧ ∀ y, Aligned h' y := by
  have C := R.core
  obtain ⟨RT, e⟩ := rep_of_tree C.wf C.forest x
  have hb : ∀ i, i ∈ (h.tree x).ids ↔ Below h x i := fun i => by have := below_iff_ids RT i; rw [e] at this; exact this.symm
  obtain ⟨h', e1, R', T', F⟩ := deepReverse_does ms (h.tree x) n hn (RT.ids_nodup C.wf C.forest) h R RT
    (fun i hi => Rep.below_lt C.wf hx ((hb i).1 hi)) (fun i hi => hpr i ((hb i).1 hi))
  rw [e] at e1
  have ht : h'.tree x = (h.tree x).mirror := by
    have := T'.tree R'.core.wf
    rwa [mirror_id, e] at this
  refine ⟨h', e1, ht, fun y hy => ?_, F.mono (fun i hi => (hb i).1 hi) (fun _ h => h), R', fun y => R'.core.wf.aligned y⟩
  obtain ⟨S, hS, rfl⟩ := List.mem_map.1 ((hb y).2 hy)
  have hm : S.mirror ∈ (h.tree x).mirror.pre := by
    clear * - hS
    generalize h.tree x = T at hS
    induction T using Tree.ind with
    | H i t v f l ks ih =>
      rw [Tree.pre, List.mem_cons] at hS
      rcases hS with rfl | hS
      · simp [Tree.mirror, Tree.pre]
      · rw [preL_eq, List.mem_flatMap] at hS
        obtain ⟨k, hk, hS⟩ := hS
        rw [Tree.mirror, Tree.pre, preL_eq]
        refine List.mem_cons_of_mem _ (List.mem_flatMap.2 ⟨k.mirror, ?_, ih k hk hS⟩)
        rw [mirrorL_eq]; simp only [List.mem_reverse]; exact List.mem_map_of_mem hk
  have h1 := (T'.sub _ hm).kids
  have h2 := (RT.sub _ hS).kids
  rw [mirror_id] at h1
  rw [h1, h2, mirror_kids, List.map_reverse, List.map_map]
  congr 1
  apply List.map_congr_left
  intro k _; exact mirror_id k

/-- C54. Reversing in depth twice restores everything. -/
theorem C54_deep_reverse_twice {ms : ModelSet} {h : Heap} (R : Reach ms h) {x : Id} (hx : x < h.next) (hpr : ∀ y, Below h x y → h.isProtected y = false)
    {n : Nat} (hn : (h.tree x).depth ≤ n) :
    ∃ h1 h2, deepReverse n h x = (h1, .ok ()) ∧ deepReverse n h1 x = (h2, .ok ()) ∧ h2.tree x = h.tree x ∧ Unchanged h h2 := by
  have C := R.core
  obtain ⟨h1, e1, t1, k1, F1, R1, _⟩ := C54_deep_reverse R hx hpr hn
  have hb : ∀ y, Below h1 x y ↔ Below h x y := by
    intro y
    constructor
    · intro b
      induction b with
      | refl => exact .refl
      | step _ hc ih => rw [k1 _ ih] at hc; exact ih.step (List.mem_reverse.1 hc)
    · intro b
      induction b with
      | refl => exact .refl
      | step b' hc ih => exact ih.step (by rw [k1 _ b']; exact List.mem_reverse.2 hc)
  have hd : (h1.tree x).depth ≤ n := by
    rw [t1]
    have : ∀ T : Tree, T.mirror.depth = T.depth := by
      intro T
      induction T using Tree.ind with
      | H i t v f l ks ih =>
        simp only [Tree.mirror, Tree.depth]
        congr 1
        have happ : ∀ a b : List Tree, Tree.depthL (a ++ b) = max (Tree.depthL a) (Tree.depthL b) := by
          intro a b; induction a with
          | nil => simp [Tree.depthL]
          | cons c a ih => simp [Tree.depthL, ih, Nat.max_assoc]
        induction ks with
        | nil => rfl
        | cons k ks ihk =>
          rw [Tree.mirrorL, happ, ihk fun a ha => ih a (by simp [ha])]
          simp only [Tree.depthL, ih k (by simp)]
          omega
    rw [this]; exact hn
  obtain ⟨h2, e2, t2, k2, F2, R2, _⟩ := C54_deep_reverse R1 (Nat.lt_of_lt_of_le hx F1.next) (fun y hy => by
    have hy' := (hb y).1 hy
    have := hpr y hy'
    simp only [Heap.isProtected] at this ⊢
    rw [F1.flags y (Rep.below_lt C.wf hx hy')]; exact this) hd
  have F := F1.trans (F2.mono (fun i hi => (hb i).1 hi) (fun _ h => h))
  refine ⟨h1, h2, e1, e2, by rw [t2, t1, mirror_mirror], F.next, F.tag, F.value, F.flags, F.link, fun i hi _ => ?_, F.par⟩
  by_cases hi' : Below h x i
  · rw [k2 i ((hb i).2 hi'), k1 i hi', List.reverse_reverse]
  · exact F.kids i hi hi'

theorem below_of {h : Heap} (C : Core h) {x : Id} {P : Id → Prop} (H : ∀ i ∈ (h.tree x).ids, P i) : ∀ y, Below h x y → P y := by
  intro y hy
  obtain ⟨RT, e⟩ := rep_of_tree C.wf C.forest x
  exact H y ((below_iff_ids RT y).1 (by rwa [e]))

example : ∃ h', deepReverse 3 demo 0 = (h', .ok ()) ∧ h'.kids 0 = [5, 3, 2, 1] := by
  obtain ⟨h', a, _, b, _⟩ := C54_deep_reverse (n := 3) demo_tidy.reach (x := 0) (by decide) (below_of demo_tidy.reach.core (by decide +kernel)) (by decide +kernel)
  exact ⟨h', a, by rw [b 0 .refl]; decide⟩

/-- C54, C24, C21. A protected item stops `deep.reverse` half-way: here item 1 is read-only, the root is already reversed when the PermissionError is raised. -/
theorem C54_C24_reverse_stops : let h := demo.modify 1 fun m => { m with flags := Flags.readOnlyTree }
    (deepReverse 9 h 0).2 = .error .permission ∧ h.kids 0 = [1, 2, 3, 5] ∧ (deepReverse 9 h 0).1.kids 0 = [5, 3, 2, 1] := by decide +kernel

theorem reverse_flags (h : Heap) (q : Id) : ∀ i, (reverse h q).1.flags i = h.flags i := by
  intro i; unfold reverse
  repeat' split
  all_goals simp [Heap.flags, Heap.setItems, Heap.setFams, Heap.modify]
  all_goals (repeat' split) <;> rfl
theorem reverse_kids (h : Heap) (q i : Id) (hi : i ≠ q) : (reverse h q).1.kids i = h.kids i := by
  unfold reverse
  repeat' split
  all_goals simp [Heap.kids, Heap.setItems, Heap.setFams, Heap.modify, hi]

/-- C21, C54. Whatever `t.deep.reverse()` does, and even if it ends with an exception: the children of a protected item stay in their order. -/
theorem C54_C21_reverse_keeps (p : Id) : ∀ (n : Nat) (h : Heap) (x : Id), h.isProtected p = true →
    (deepReverse n h x).1.kids p = h.kids p ∧ ∀ i, (deepReverse n h x).1.flags i = h.flags i := by
  intro n
  induction n with
  | zero => intro h x _; exact ⟨rfl, fun _ => rfl⟩
  | succ n ih =>
    intro h x hp
    have loop : ∀ (l : List Id) (h : Heap), h.isProtected p = true →
        (forEach (deepReverse n) h l).1.kids p = h.kids p ∧ ∀ i, (forEach (deepReverse n) h l).1.flags i = h.flags i := by
      intro l
      induction l with
      | nil => intro h _; exact ⟨rfl, fun _ => rfl⟩
      | cons y l ihl =>
        intro h hp
        obtain ⟨a, b⟩ := ih h y hp
        simp only [forEach]
        split
        · exact ⟨a, b⟩
        · have hp' : (deepReverse n h y).1.isProtected p = true := by simp only [Heap.isProtected] at hp ⊢; rw [b]; exact hp
          obtain ⟨c, d⟩ := ihl _ hp'
          exact ⟨c.trans a, fun i => (d i).trans (b i)⟩
    unfold deepReverse
    split
    · exact ⟨rfl, fun _ => rfl⟩
    · exact ⟨rfl, fun _ => rfl⟩
    · next hg =>
      have hxp : p ≠ x := by
        rintro rfl
        simp only [guardReorder, hp, if_true] at hg
        split at hg <;> simp at hg
      split
      · exact ⟨rfl, fun _ => rfl⟩
      · dsimp only
        split
        · exact ⟨reverse_kids h x p hxp, reverse_flags h x⟩
        · have hp' : (reverse h x).1.isProtected p = true := by simp only [Heap.isProtected] at hp ⊢; rw [reverse_flags]; exact hp
          obtain ⟨c, d⟩ := loop ((reverse h x).1.kids x) _ hp'
          exact ⟨c.trans (reverse_kids h x p hxp), fun i => (d i).trans (reverse_flags h x i)⟩

/-- C54 (partial: the children are replaced by copies, as by `sort`). `t.deep.sort(key, reverse)` on a tree without protected items and links, with a key that depends on the data of an item and the items
below it: the children of every item are sorted, stably, level by level; outside of the tree nothing changes. -/
theorem C54_deep_sort_partial {ms : ModelSet} {h : Heap} (R : Reach ms h) {x : Id} (hx : x < h.next) (hf : (h.tree x).shape.Free) (K : Shape → Int) (rev : Bool)
    {n : Nat} (hn : (h.tree x).depth ≤ n) :
    ∃ h', deepSort (fun h c => K (h.tree c).shape) rev n h x = (h', .ok ()) ∧ SortedDeep K rev (h.tree x).shape (h'.tree x).shape ∧
      Frame h h' (· = x) (fun _ => False) ∧ Reach ms h' ∧ ∀ y, Aligned h' y := by
  obtain ⟨h', e, R', S, F⟩ := deepSort_sorts ms K rev n h x R hx hn hf
  exact ⟨h', e, S, F, R', fun y => R'.core.wf.aligned y⟩

/-- the number of children, the key of `key=None` -/
def Shape.nkids : Shape → Int | .node _ _ _ _ ks => ks.length

example : (demo.tree 0).shape.Free := by
  have : ∀ s : Shape, s.freeB = true → s.Free := Shape.free_of
  exact this _ (by decide +kernel)
example : ∃ h', deepSort (fun h c => Shape.nkids (h.tree c).shape) false 3 demo 0 = (h', .ok ()) ∧ SortedDeep Shape.nkids false (demo.tree 0).shape (h'.tree 0).shape := by
  obtain ⟨h', a, b, _⟩ := C54_deep_sort_partial demo_tidy.reach (x := 0) (by decide) (Shape.free_of _ (by decide +kernel)) Shape.nkids false (n := 3) (by decide +kernel)
  exact ⟨h', a, b⟩

/-! ### deep.remove -/

theorem removeFromParent_succ {ms : ModelSet} {h : Heap} (R : Reach ms h) {x q : Id} (hx : x ∈ h.kids q) (hpr : h.isProtected q = false) :
    ∃ h', removeFromParent h x = (h', .ok ()) ∧ Reach ms h' ∧ h'.kids q = (h.kids q).filter (· ≠ x) ∧ h'.par x = none ∧ Frame h h' (· = q) (· = x) := by
  have C := R.core
  obtain ⟨n, hn⟩ := List.getElem?_of_mem hx
  obtain ⟨h', a, b, c, d, _⟩ := C09_remove R hpr hn
  have hp := par_child C.wf hx
  have R' : Reach ms h' := by
    have := R.step (.remove q x) trivial
    simp only [step, a, Res.void] at this; exact this
  refine ⟨h', by simp only [removeFromParent, hp, a, Res.void]; rfl, R', ?_, c, d⟩
  have hnd := C.wf.kids_nodup q
  rw [b]
  have h1 : (h.kids q).take n ++ (h.kids q).drop (n + 1) = (h.kids q).erase x := by
    rw [← List.eraseIdx_eq_take_drop_succ]
    have := (List.getElem?_eq_some_iff.1 hn)
    rw [← this.2]
    exact (hnd.erase_getElem n this.1).symm
  rw [h1, hnd.erase_eq_filter]
  apply List.filter_congr; intro y _
  by_cases e : y = x <;> simp [e]

theorem removeElems_succ {ms : ModelSet} : ∀ (S : List Id) {h : Heap}, Reach ms h → S.Nodup → (∀ y ∈ S, ∃ q, y ∈ h.kids q ∧ h.isProtected q = false) →
    ∃ h', removeElems h (S.map Elem.item) = (h', .ok ()) ∧ Reach ms h' ∧ (∀ q, q < h.next → h'.kids q = (h.kids q).filter (· ∉ S)) ∧ (∀ y ∈ S, h'.par y = none) ∧
      Frame h h' (fun q => ∃ y ∈ S, y ∈ h.kids q) (· ∈ S)
  | [], h, R, _, _ => ⟨h, rfl, R, by simp, by simp, Frame.refl _ _ _⟩
  | x :: S, h, R, N, H => by
    have C := R.core
    rw [List.nodup_cons] at N
    obtain ⟨q, hq, hpr⟩ := H x (by simp)
    obtain ⟨h1, a, R1, b, c, d⟩ := removeFromParent_succ R hq hpr
    have hql := C.wf.lt_of_kids (p := q) (List.ne_nil_of_mem hq)
    have hk1 : ∀ r, r < h.next → h1.kids r = (h.kids r).filter (· ≠ x) := by
      intro r hr
      by_cases e : r = q
      · rw [e, b]
      · rw [d.kids r hr e]
        symm; rw [List.filter_eq_self]
        intro y hy
        simp only [ne_eq, decide_not, Bool.not_eq_eq_eq_not, Bool.not_true, decide_eq_false_iff_not]
        rintro rfl
        exact e (uniq_parent C.wf hy hq)
    obtain ⟨h2, a2, R2, b2, c2, d2⟩ := removeElems_succ S R1 N.2 (fun y hy => by
      obtain ⟨r, hr, hpr'⟩ := H y (by simp [hy])
      have hrl := C.wf.lt_of_kids (p := r) (List.ne_nil_of_mem hr)
      refine ⟨r, ?_, ?_⟩
      · rw [hk1 r hrl, List.mem_filter]
        refine ⟨hr, ?_⟩
        simp only [ne_eq, decide_not, Bool.not_eq_eq_eq_not, Bool.not_true, decide_eq_false_iff_not]
        rintro rfl; exact N.1 hy
      · simp only [Heap.isProtected] at hpr' ⊢; rw [d.flags r hrl]; exact hpr')
    refine ⟨h2, ?_, R2, fun r hr => ?_, fun y hy => ?_, ?_⟩
    · simp only [List.map_cons, removeElems, a]; exact a2
    · rw [b2 r (Nat.lt_of_lt_of_le hr d.next), hk1 r hr, List.filter_filter]
      apply List.filter_congr; intro y _
      by_cases e : y = x <;> by_cases e' : y ∈ S <;> simp [e, e']
    · rcases List.mem_cons.1 hy with rfl | hy
      · by_cases e : y ∈ S
        · exact c2 y e
        · rw [d2.par y (Nat.lt_of_lt_of_le (C.wf.kids_lt q y hq) d.next) e]; exact c
      · exact c2 y hy
    · refine (d.mono ?_ ?_).trans (d2.mono ?_ ?_)
      · rintro i rfl; exact ⟨x, by simp, hq⟩
      · rintro i rfl; simp
      · rintro i ⟨y, hy, hyk⟩
        by_cases hil : i < h.next
        · rw [hk1 i hil, List.mem_filter] at hyk
          exact ⟨y, by simp [hy], hyk.1⟩
        · exact ⟨y, by simp [hy], by
            obtain ⟨r, hr, _⟩ := H y (by simp [hy])
            have hrl := C.wf.lt_of_kids (p := r) (List.ne_nil_of_mem hr)
            have : y ∈ h1.kids r := by
              rw [hk1 r hrl, List.mem_filter]; refine ⟨hr, ?_⟩
              simp only [ne_eq, decide_not, Bool.not_eq_eq_eq_not, Bool.not_true, decide_eq_false_iff_not]
              rintro rfl; exact N.1 hy
            have := uniq_parent R1.core.wf hyk this
            omega⟩
      · intro i hi; simp [hi]

/-- C54. `t.deep.remove(*targets)` where the targets select the items `S` (level by level, as for `get`), all different children of unprotected items: exactly these items leave
their parents, have no parent any more, and are returned. -/
theorem C54_deep_remove_partial {ms : ModelSet} {h : Heap} (R : Reach ms h) (p : Id) (t : Target) (ts : List Target) (hs : ∀ u ∈ t :: ts, u.isKeySlice = false)
    {S : List Id} (hS : levels h [p] (t :: ts) = S) (hne : S ≠ []) (N : S.Nodup) (H : ∀ y ∈ S, ∃ q, y ∈ h.kids q ∧ h.isProtected q = false) :
    ∃ h' r, deepRemove h p t ts = (h', .ok r) ∧ r.items = S.map Elem.item ∧ (∀ q, q < h.next → h'.kids q = (h.kids q).filter (· ∉ S)) ∧ (∀ y ∈ S, h'.par y = none) ∧
      Frame h h' (fun q => ∃ y ∈ S, y ∈ h.kids q) (· ∈ S) ∧ Reach ms h' := by
  obtain ⟨g1, g2⟩ := C48_get_partial h p t ts hs
  obtain ⟨r, e⟩ := g2 (by rw [hS]; exact hne)
  have hi := g1 r e
  rw [hS] at hi
  obtain ⟨h', a, R', b, c, d⟩ := removeElems_succ S R N H
  refine ⟨h', r, ?_, hi, b, c, d, R'⟩
  unfold deepRemove
  rw [e]
  cases r with
  | one x =>
    have : S = [x] := by
      simp only [GetOut.items] at hi
      cases S with
      | nil => simp at hi
      | cons y S => cases S <;> simp at hi; rw [hi]
    subst this
    simp only [List.map_cons, List.map_nil, removeElems] at a
    dsimp only
    cases hr : (removeFromParent h x).2 with
    | error e => simp [hr] at a
    | ok u =>
      simp only [hr, Prod.mk.injEq, and_true] at a ⊢
      exact a
  | list es =>
    simp only [GetOut.items] at hi
    subst hi
    simp only [a]

example : ∃ h' r, deepRemove demo 0 (.tag (.other 1)) [] = (h', .ok r) ∧ r.items = [.item 1, .item 3] ∧ h'.kids 0 = [2, 5] := by
  obtain ⟨h', r, a, b, c, _⟩ := C54_deep_remove_partial demo_tidy.reach 0 (.tag (.other 1)) [] (by decide) (S := [1, 3]) (by decide +kernel) (by decide) (by decide)
    (by intro y hy; exact ⟨0, by revert y; decide +kernel, by decide +kernel⟩)
  exact ⟨h', r, a, b, by rw [c 0 (by decide)]; decide +kernel⟩

/-- C54, C24. A target list naming an item twice removes it and then raises AttributeError. -/
theorem C54_C24_remove_twice : (deepRemove demo 0 (.list [.int 0, .int 0]) []).2 = .error .attribute ∧
    (deepRemove demo 0 (.list [.int 0, .int 0]) []).1.kids 0 = [2, 3, 5] := by decide +kernel

/-! ### flags -/

/-- an operation on one item that rewrites its flags by `g` unless the item is linked -/
theorem forEach_flags {f : Heap → Id → Res Unit} {g : Flags → Flags} (hgg : ∀ a, g (g a) = g a)
    (hf : ∀ h i, (h.flags i).has Flags.linked = false → f h i = (h.modify i fun n => { n with flags := g n.flags }, .ok ()))
    (hg : ∀ a : Flags, a.has Flags.linked = false → (g a).has Flags.linked = false) : ∀ (l : List Id) (h : Heap), (∀ x ∈ l, (h.flags x).has Flags.linked = false) →
    ∃ h', forEach f h l = (h', .ok ()) ∧ h'.next = h.next ∧ ∀ i, h'.node i = { h.node i with flags := if i ∈ l then g (h.flags i) else h.flags i } := by
  intro l
  induction l with
  | nil => intro h _; exact ⟨h, rfl, rfl, fun i => by simp [Heap.flags]⟩
  | cons x l ih =>
    intro h hl
    have hx := hl x (by simp)
    obtain ⟨h', e1, e2, e3⟩ := ih (h.modify x fun n => { n with flags := g n.flags }) (by
      intro y hy
      simp only [Heap.flags, Heap.modify]
      split
      · exact hg _ (hl y (by simp [hy]))
      · exact hl y (by simp [hy]))
    refine ⟨h', ?_, e2, fun i => ?_⟩
    · simp only [forEach, hf h x hx, e1]
    · rw [e3 i]
      simp only [Heap.flags, Heap.modify]
      by_cases hi : i = x
      · subst hi
        simp only [if_true, List.mem_cons, true_or]
        split <;> simp [hgg]
      · simp [hi]

/-- the items an in-depth flag call is about: without filter the item and everything below it; with a filter the item, if it matches, and – hierarchical – the items
reached from it through matching items only, or – not hierarchical – all matching items below it -/
def Selected (h : Heap) (x : Id) (filter : Option (Id → Bool)) (hier : Bool) (y : Id) : Prop :=
  match filter with
  | none => Below h x y
  | some f => (y = x ∧ f x = true) ∨ (if hier then MatchPath h f x y else Below h x y ∧ y ≠ x ∧ f y = true)

theorem mem_flagTargets {ms : ModelSet} {h : Heap} (R : Reach ms h) (x : Id) (filter : Option (Id → Bool)) (hier : Bool) (y : Id) :
    y ∈ flagTargets h x filter hier ↔ Selected h x filter hier y := by
  have C := R.core
  obtain ⟨RT, e⟩ := rep_of_tree C.wf C.forest x
  have hd : y ∈ (h.tree x).deep.map Tree.id ↔ Below h x y ∧ y ≠ x := by
    have := mem_idsL_kids C.wf C.forest RT y
    rw [e] at this; exact this
  cases filter with
  | none =>
    simp only [flagTargets, Selected, List.mem_cons, hd]
    constructor
    · rintro (rfl | h) <;> [exact .refl; exact h.1]
    · intro hb
      by_cases c : y = x
      · exact .inl c
      · exact .inr ⟨hb, c⟩
  | some f =>
    simp only [flagTargets, Selected, List.mem_append]
    apply or_congr
    · by_cases c : f x = true <;> simp [c]
    · cases hier
      · simp only [Bool.false_eq_true, if_false, List.mem_filter, hd, and_assoc]
      · simp only [if_true]
        have := mem_bodyOrder RT f (IterOpts.ofInt 1) y
        rw [e] at this
        exact this

/-- C55. `t.deep.set_value_read_only(filter, hierarchical)` when no selected item is linked and the parent of `t` is not structure protected: the selected items – and only
they – get the flag, their values are read-only; nothing else changes. -/
theorem C55_set_value {ms : ModelSet} {h : Heap} (R : Reach ms h) (x : Id) (filter : Option (Id → Bool)) (hier : Bool)
    (hp : ∀ p, h.par x = some p → (h.flags p).has Flags.readOnlyTree = false) (hl : ∀ y, Selected h x filter hier y → (h.flags y).has Flags.linked = false) :
    ∃ h', deepSetValueReadOnly h x filter hier = (h', .ok ()) ∧ h'.next = h.next ∧
      (∀ y, Selected h x filter hier y → h'.flags y = h.flags y ||| Flags.readOnlyValue ∧ isValueReadOnly h' y = true) ∧
      (∀ y, ¬ Selected h x filter hier y → h'.flags y = h.flags y) ∧
      (∀ i, h'.tag i = h.tag i ∧ (h'.node i).value = (h.node i).value ∧ h'.kids i = h.kids i ∧ h'.par i = h.par i ∧ (h'.node i).link = (h.node i).link) := by
  have hpr : parentReadOnly h x = false := by
    unfold parentReadOnly; split
    · next p e => exact hp p e
    · rfl
  obtain ⟨h', e1, e2, e3⟩ := forEach_flags (f := fun h i => setFlags1 h i Flags.readOnlyValue) (g := fun a => a ||| Flags.readOnlyValue) (by decide +kernel)
    (fun h i hi => by simp [setFlags1, hi]) (by decide +kernel) (flagTargets h x filter hier) h (fun y hy => hl y ((mem_flagTargets R x filter hier y).1 hy))
  refine ⟨h', by simp only [deepSetValueReadOnly, hpr]; exact e1, e2, fun y hy => ?_, fun y hy => ?_, fun i => ?_⟩
  · have hf : h'.flags y = h.flags y ||| Flags.readOnlyValue := by
      simp only [Heap.flags] at *
      rw [e3 y]; simp [(mem_flagTargets R x filter hier y).2 hy]
    refine ⟨hf, ?_⟩
    simp only [isValueReadOnly, hf]
    generalize h.flags y = f
    revert f
    decide
  · have : y ∉ flagTargets h x filter hier := fun c => hy ((mem_flagTargets R x filter hier y).1 c)
    simp only [Heap.flags] at *
    rw [e3 y]; simp [this]
  · simp only [Heap.tag, Heap.kids, Heap.par, e3 i, and_self]

example : ∃ h', deepSetValueReadOnly demo 0 none true = (h', .ok ()) ∧ h'.flags 4 = Flags.readOnlyValue ∧ h'.flags 6 = demo.flags 6 := by
  obtain ⟨h', a, _, b, c, _⟩ := C55_set_value demo_tidy.reach 0 none true (by decide +kernel) (below_of demo_tidy.reach.core (by decide +kernel))
  have hb : Below demo 0 4 := (Below.refl.step (c := 1) (by decide)).step (by decide)
  refine ⟨h', a, ?_, c 6 ?_⟩
  · rw [(b 4 hb).1]; decide
  · intro hn
    exact absurd (below_of demo_tidy.reach.core (x := 0) (P := (· ≠ 6)) (by decide +kernel) 6 hn) (by simp)

/-- C55 (partial: only when no selected item carries another flag, see `C55_unset_drops_all`). `t.deep.unset_tree_read_only(...)` and
`t.deep.unset_value_read_only(...)`: the selected items lose the flag, nothing else changes. -/
theorem C55_unset_partial {ms : ModelSet} {h : Heap} (R : Reach ms h) (x : Id) (filter : Option (Id → Bool)) (hier : Bool) (fl : Flags)
    (hfl : fl = Flags.readOnlyTree ∨ fl = Flags.readOnlyValue)
    (hp : ∀ p, h.par x = some p → (h.flags p).has Flags.readOnlyTree = false) (hl : ∀ y, Selected h x filter hier y → h.flags y = fl ∨ h.flags y = 0#6) :
    ∃ h', (if fl = Flags.readOnlyTree then deepUnsetTreeReadOnly h x filter hier else deepUnsetValueReadOnly h x filter hier) = (h', .ok ()) ∧ h'.next = h.next ∧
      (∀ y, Selected h x filter hier y → h'.flags y = 0#6) ∧ (∀ y, ¬ Selected h x filter hier y → h'.flags y = h.flags y) ∧
      (∀ i, h'.tag i = h.tag i ∧ (h'.node i).value = (h.node i).value ∧ h'.kids i = h.kids i ∧ h'.par i = h.par i ∧ (h'.node i).link = (h.node i).link) := by
  have hpr : parentReadOnly h x = false := by
    unfold parentReadOnly; split
    · next p e => exact hp p e
    · rfl
  have k : ∀ s f : Flags, unsetFlags s f = 0#6 := by decide +kernel
  obtain ⟨h', e1, e2, e3⟩ := forEach_flags (f := fun h i => unsetFlagsOp h i fl) (g := fun _ => 0#6) (by decide +kernel)
    (fun h i hi => by simp [unsetFlagsOp, hi, k]) (by decide +kernel) (flagTargets h x filter hier) h (fun y hy => by
      rcases hfl with rfl | rfl <;> rcases hl y ((mem_flagTargets R x filter hier y).1 hy) with e | e <;> rw [e] <;> decide)
  refine ⟨h', ?_, e2, fun y hy => ?_, fun y hy => ?_, fun i => ?_⟩
  · rcases hfl with rfl | rfl
    · simp only [if_true, deepUnsetTreeReadOnly, hpr]; exact e1
    · rw [if_neg (by decide)]; simp only [deepUnsetValueReadOnly, hpr]; exact e1
  · simp only [Heap.flags] at *
    rw [e3 y]; simp [(mem_flagTargets R x filter hier y).2 hy]
  · have : y ∉ flagTargets h x filter hier := fun c => hy ((mem_flagTargets R x filter hier y).1 c)
    simp only [Heap.flags] at *
    rw [e3 y]; simp [this]
  · simp only [Heap.tag, Heap.kids, Heap.par, e3 i, and_self]

/-- C55 is false: the in-depth unset calls drop every flag of the selected items – here the tree protection of the whole tree is lost when the values are unprotected. -/
theorem C55_unset_drops_all : (deepUnsetValueReadOnly demoLocked 0 none true).2 = .ok () ∧ demoLocked.flags 1 = Flags.readOnlyTree ∧
    (deepUnsetValueReadOnly demoLocked 0 none true).1.flags 1 = 0#6 := by decide +kernel

/-- C55. Below a structure protected parent all three calls are refused and change nothing – even the two about values. -/
theorem C55_parent_blocks (h : Heap) (x p : Id) (filter : Option (Id → Bool)) (hier : Bool) (hp : h.par x = some p) (hr : (h.flags p).has Flags.readOnlyTree = true) :
    deepUnsetTreeReadOnly h x filter hier = (h, .error .permission) ∧ deepUnsetValueReadOnly h x filter hier = (h, .error .permission) ∧
    deepSetValueReadOnly h x filter hier = (h, .error .permission) := by
  simp [deepUnsetTreeReadOnly, deepUnsetValueReadOnly, deepSetValueReadOnly, parentReadOnly, hp, hr]

example : (deepSetValueReadOnly demoLocked 1 none true).2 = .error .permission := by rw [(C55_parent_blocks _ 1 0 none true (by decide) (by decide)).2.2]

/-- C55, C24. A linked item stops the calls in the middle. -/
theorem C55_C24_set_stops : (let h := demo.modify 2 fun n => { n with flags := Flags.linked }
    let r := deepSetValueReadOnly h 0 none true
    r.2 = .error .permission ∧ r.1.flags 0 = Flags.readOnlyValue ∧ r.1.flags 3 = 0#6) := by decide +kernel

end ITree
