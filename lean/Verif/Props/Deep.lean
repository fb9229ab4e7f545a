import Verif.Proofs.Deep
import Verif.Props.Demo
/-
C26 – C28, C30: deep iteration.

`Delivers run l` says that the generator ends and has delivered `l`.  `Rep h T` says that `T` is the tree below its root in the heap (`Spec/Rep`);
every item of a reachable state has exactly one such tree (`C26_tree`).
-/
namespace ITree

/-- `a` comes before `b` in the list -/
def Before (l : List Id) (a b : Id) : Prop := ∃ u v w, l = u ++ a :: (v ++ b :: w)

theorem Before.infix {l : List Id} {a b : Id} (h : Before l a b) (s t : List Id) : Before (s ++ l ++ t) a b := by
  obtain ⟨u, v, w, rfl⟩ := h
  exact ⟨s ++ u, v, w ++ t, by simp⟩
theorem Before.cons {l : List Id} {a b : Id} (h : Before l a b) (s : Id) : Before (s :: l) a b := by
  simpa using h.infix [s] []
theorem before_append {l m : List Id} {a b : Id} (ha : a ∈ l) (hb : b ∈ m) : Before (l ++ m) a b := by
  obtain ⟨u, v, rfl⟩ := List.append_of_mem ha
  obtain ⟨u', v', rfl⟩ := List.append_of_mem hb
  exact ⟨u, v ++ u', v', by simp⟩
theorem idsL_split {k : Tree} {ks : List Tree} (hk : k ∈ ks) : ∃ s t, Tree.idsL ks = s ++ k.ids ++ t := by
  induction ks with
  | nil => simp at hk
  | cons a r ih =>
    rw [Tree.idsL_cons]
    rcases List.mem_cons.1 hk with rfl | hk
    · exact ⟨[], Tree.idsL r, by simp⟩
    · obtain ⟨s, t, e⟩ := ih hk
      exact ⟨a.ids ++ s, t, by rw [e]; simp⟩

variable {ms : ModelSet} {h : Heap}

/-- every item of a reachable state is the root of exactly one finite tree -/
theorem C26_tree (H : Reach ms h) (x : Id) : ∃ T : Tree, T.id = x ∧ Rep h T ∧ ∀ T' : Tree, T'.id = x → Rep h T' → T' = T :=
  ⟨h.tree x, tree_id h x, tree_rep H.core.wf H.core.forest x, fun T' e R' => R'.unique (tree_rep H.core.wf H.core.forest x) (by rw [e, tree_id])⟩

/-- `list(x.deep)` ends and is the pre-order of the tree without its root -/
theorem C26_preorder {T : Tree} (R : Rep h T) : Delivers (fun n => deepList n h T.id) (T.deep.map Tree.id) := by
  have := (pre_delivers (fun _ => true) R.lists).map (·.1)
  rw [preFL_true] at this
  exact this

/-- every item below `x` is listed exactly once, nothing else is -/
theorem C26_each_once (H : Reach ms h) (x : Id) : ∃ l, Delivers (fun n => deepList n h x) l ∧ l.Nodup ∧ ∀ y, y ∈ l ↔ Below h x y ∧ y ≠ x := by
  have C := H.core
  have R := tree_rep C.wf C.forest x
  have := C26_preorder R
  rw [tree_id] at this
  refine ⟨_, this, ?_, fun y => ?_⟩
  · have hn := R.ids_nodup C.wf C.forest
    generalize h.tree x = T at hn
    cases T; rw [Tree.ids_node, List.nodup_cons] at hn; exact hn.2
  · have := mem_idsL_kids C.wf C.forest R y
    rwa [tree_id] at this

theorem below_kid_cases {p c : Id} (hb : Below h p c) : p = c ∨ ∃ k ∈ h.kids p, Below h k c := by
  induction hb with
  | refl => exact .inl rfl
  | @step q c hq hc ih =>
    rcases ih with rfl | ⟨k, hk, hb⟩
    · exact .inr ⟨c, hc, .refl⟩
    · exact .inr ⟨k, hk, .step hb hc⟩

theorem before_ids_parent {T : Tree} (W : WF h) (F : Forest h) (R : Rep h T) {p c : Id} (hp : Below h T.id p) (hb : Below h p c) (hne : c ≠ p) :
    Before T.ids p c := by
  induction T using Tree.ind with
  | H i t v f l ks ih =>
    have hk : h.kids i = ks.map Tree.id := R.kids
    simp only [Tree.id] at hp
    rcases below_kid_cases hp with rfl | ⟨k, hk', hp⟩
    · have := (mem_idsL_kids W F R c).2 ⟨hb, hne⟩
      simp only [Tree.kids] at this
      rw [Tree.ids_node]
      exact before_append (l := [i]) (by simp) this
    · rw [hk, List.mem_map] at hk'
      obtain ⟨k, hk', rfl⟩ := hk'
      obtain ⟨s, t', e⟩ := idsL_split hk'
      rw [Tree.ids_node, e]
      exact ((ih k hk' (R.kid hk') hp).infix s t').cons i

theorem before_ids_sibling {T : Tree} (W : WF h) (F : Forest h) (R : Rep h T) {p a b y z : Id} (hp : Below h T.id p) (hab : Before (h.kids p) a b)
    (hy : Below h a y) (hz : Below h b z) : Before (Tree.idsL T.kids) y z := by
  induction T using Tree.ind with
  | H i t v f l ks ih =>
    have hk : h.kids i = ks.map Tree.id := R.kids
    simp only [Tree.id] at hp
    simp only [Tree.kids]
    rcases below_kid_cases hp with rfl | ⟨k, hk', hp⟩
    · obtain ⟨u, v', w, e⟩ := hab
      rw [hk] at e
      have hR : ∀ k ∈ ks, Rep h k := fun k hk => R.kid hk
      have e' := e
      rw [List.map_eq_append_iff] at e'
      obtain ⟨l1, l2, rfl, h1, h2⟩ := e'
      rw [List.map_eq_cons_iff] at h2
      obtain ⟨ta, l3, rfl, rfl, h3⟩ := h2
      rw [List.map_eq_append_iff] at h3
      obtain ⟨l4, l5, rfl, h4, h5⟩ := h3
      rw [List.map_eq_cons_iff] at h5
      obtain ⟨tb, l6, rfl, rfl, h6⟩ := h5
      have e3 : Tree.idsL (l1 ++ ta :: (l4 ++ tb :: l6)) = Tree.idsL l1 ++ ((ta.ids ++ Tree.idsL l4) ++ (tb.ids ++ Tree.idsL l6)) := by
        simp [Tree.idsL, Tree.ids, preL_eq]
      rw [e3]
      have hya := (below_iff_ids (hR ta (by simp)) y).1 hy
      have hzb := (below_iff_ids (hR tb (by simp)) z).1 hz
      have := before_append (l := ta.ids ++ Tree.idsL l4) (m := tb.ids ++ Tree.idsL l6) (List.mem_append_left _ hya) (List.mem_append_left _ hzb)
      simpa using this.infix (Tree.idsL l1) []
    · rw [hk, List.mem_map] at hk'
      obtain ⟨k, hk', rfl⟩ := hk'
      obtain ⟨s, t', e⟩ := idsL_split hk'
      rw [e]
      have := ih k hk' (R.kid hk') hp
      have h2 : Before k.ids y z := by cases k; rw [Tree.ids_node]; exact this.cons _
      exact h2.infix s t'

/-- parents come before everything below them -/
theorem C26_parents_first (H : Reach ms h) {x p c : Id} (hp : Below h x p) (hpx : p ≠ x) (hc : Below h p c) (hcp : c ≠ p) :
    ∃ l, Delivers (fun n => deepList n h x) l ∧ Before l p c := by
  have C := H.core
  have R := tree_rep C.wf C.forest x
  have hd := C26_preorder R
  rw [tree_id] at hd
  refine ⟨_, hd, ?_⟩
  have hid := tree_id h x
  generalize h.tree x = T at R hid
  rcases below_kid_cases hp with rfl | ⟨k, hk, hb⟩
  · exact (hpx rfl).elim
  · have hk2 := R.kids
    rw [hid] at hk2
    rw [hk2, List.mem_map] at hk
    obtain ⟨k, hk, rfl⟩ := hk
    obtain ⟨s, t, e⟩ := idsL_split hk
    have := (before_ids_parent C.wf C.forest (R.kid hk) hb hc hcp).infix s t
    rw [← e] at this; exact this

/-- what is below an earlier sibling comes before what is below a later one -/
theorem C26_siblings_in_order (H : Reach ms h) {x p a b y z : Id} (hp : Below h x p) (hab : Before (h.kids p) a b) (hy : Below h a y)
    (hz : Below h b z) : ∃ l, Delivers (fun n => deepList n h x) l ∧ Before l y z := by
  have C := H.core
  have R := tree_rep C.wf C.forest x
  have hd := C26_preorder R
  rw [tree_id] at hd
  exact ⟨_, hd, before_ids_sibling C.wf C.forest R (by rwa [tree_id]) hab hy hz⟩

example : deepList 20 demo 0 = some [1, 4, 2, 3, 5] := by decide +kernel
example : ∃ T : Tree, T.id = 0 ∧ Rep demo T ∧ T.deep.map Tree.id = [1, 4, 2, 3, 5] := by
  refine ⟨demo.tree 0, tree_id _ _, tree_rep demo_core.wf demo_core.forest 0, by decide +kernel⟩
example : Below demo 0 1 ∧ Below demo 1 4 ∧ Before (demo.kids 0) 1 3 :=
  ⟨.step .refl (by decide), .step .refl (by decide), [], [2], [5], by decide⟩

/-! ### C27 -/

theorem deepIter_none {T : Tree} (R : Rep h T) (options : Nat) :
    Delivers (fun n => deepIter n h T.id none options) (fullOrder (fun _ => true) (IterOpts.ofInt options) T) := iterHelper_delivers R (fun _ => true) (IterOpts.ofInt options)

/-- `deep.iter()` with the default option is the iteration of `deep`, with SELF the item itself comes first -/
theorem C27_down {T : Tree} (R : Rep h T) (self : Bool) :
    Delivers (fun n => deepIter n h T.id none (1 + if self then 8 else 0)) ((if self then [T.id] else []) ++ T.deep.map Tree.id) := by
  have := deepIter_none R (1 + if self then 8 else 0)
  have e : Tree.preFL (fun _ => true) T.kids = T.deep.map Tree.id := preFL_true T.kids
  cases self <;> simp [fullOrder, bodyOrder, IterOpts.ofInt, Nat.testBit, Tree.view, e] at this ⊢ <;> exact this

/-- UP delivers the post-order; with SELF the item itself comes last. `options=0` means UP, too. -/
theorem C27_up {T : Tree} (R : Rep h T) (self : Bool) :
    Delivers (fun n => deepIter n h T.id none (2 + if self then 8 else 0)) (Tree.postFL (fun _ => true) T.kids ++ if self then [T.id] else []) := by
  have := deepIter_none R (2 + if self then 8 else 0)
  cases self <;> simp [fullOrder, bodyOrder, IterOpts.ofInt, Nat.testBit, Tree.view] at this ⊢ <;> exact this
theorem C27_zero_is_up (x : Id) (f : Option (Id → Bool)) (n : Nat) : deepIter n h x f 0 = deepIter n h x f 2 := by
  simp [deepIter, IterOpts.ofInt, Nat.testBit]

/-- REVERSE delivers the pre-order of the mirrored tree; with SELF the item itself comes last. -/
theorem C27_reverse {T : Tree} (R : Rep h T) (self : Bool) :
    Delivers (fun n => deepIter n h T.id none (4 + if self then 8 else 0)) (T.mirror.deep.map Tree.id ++ if self then [T.id] else []) := by
  have := deepIter_none R (4 + if self then 8 else 0)
  have e : Tree.preFL (fun _ => true) T.mirror.kids = T.mirror.deep.map Tree.id := preFL_true T.mirror.kids
  cases self <;> simp [fullOrder, bodyOrder, IterOpts.ofInt, Nat.testBit, Tree.view, e] at this ⊢ <;> exact this

/-- UP|REVERSE delivers the post-order of the mirrored tree, which is the pre-order read backwards. -/
theorem C27_up_reverse {T : Tree} (R : Rep h T) (self : Bool) :
    Delivers (fun n => deepIter n h T.id none (6 + if self then 8 else 0))
      (Tree.postFL (fun _ => true) T.mirror.kids ++ if self then [T.id] else []) ∧
    Tree.postFL (fun _ => true) T.mirror.kids = (T.deep.map Tree.id).reverse := by
  have := deepIter_none R (6 + if self then 8 else 0)
  refine ⟨by cases self <;> simp [fullOrder, bodyOrder, IterOpts.ofInt, Nat.testBit, Tree.view] at this ⊢ <;> exact this, ?_⟩
  have e : Tree.preFL (fun _ => true) T.kids = T.deep.map Tree.id := preFL_true T.kids
  rw [← e, mirror_kids, ← mirrorL_eq, postFL_eq]
  congr 2
  rw [mirrorL_eq, mirrorL_eq, List.map_reverse, List.reverse_reverse, List.map_map]
  exact map_id_of fun k _ => mirror_mirror k

/-- without a filter all option values deliver the same items, each once; SELF adds exactly the item itself -/
theorem C27_same_items {T : Tree} (R : Rep h T) (options : Nat) :
    ∃ l, Delivers (fun n => deepIter n h T.id none options) l ∧
      l.Perm ((if (IterOpts.ofInt options).self then [T.id] else []) ++ T.deep.map Tree.id) := by
  refine ⟨_, deepIter_none R options, ?_⟩
  have e : Tree.preFL (fun _ => true) T.kids = T.deep.map Tree.id := preFL_true T.kids
  rw [← e]
  have hb : (bodyOrder (fun _ => true) (IterOpts.ofInt options) T).Perm (Tree.preFL (fun _ => true) T.kids) := by
    have hv : ∀ rev, (Tree.preFL (fun _ => true) (T.view rev).kids).Perm (Tree.preFL (fun _ => true) T.kids) := by
      intro rev
      cases rev with
      | false => exact .refl _
      | true => simp only [Tree.view, if_true, mirror_kids]; rw [← mirrorL_eq]; exact preFL_perm_mirrorL _ _
    unfold bodyOrder
    split
    · exact (postFL_perm _ _).trans (hv _)
    · exact hv _
  unfold fullOrder
  split
  · simp only [if_true]
    split
    · exact (List.perm_append_comm).trans (hb.cons _)
    · exact hb.cons _
  · exact hb

example : deepIter 20 demo 0 none 2 = some [4, 1, 2, 3, 5] ∧ deepIter 20 demo 0 none 4 = some [5, 3, 2, 1, 4] ∧
    deepIter 20 demo 0 none 6 = some [5, 3, 2, 4, 1] ∧ deepIter 20 demo 0 none 14 = some [5, 3, 2, 4, 1, 0] ∧
    deepIter 20 demo 0 none 9 = some [0, 1, 4, 2, 3, 5] := by decide +kernel

/-! ### C28 -/

/-- a path of matching items leading from a child of `x` down to `y` -/
def MatchPath (h : Heap) (f : Id → Bool) (x y : Id) : Prop :=
  ∃ l : List Id, (∃ c, l.head? = some c ∧ c ∈ h.kids x) ∧ l.getLast? = some y ∧ (∀ z ∈ l, f z = true) ∧ l.IsChain fun a b => b ∈ h.kids a

theorem mem_preFL {T : Tree} (R : Rep h T) (f : Id → Bool) (y : Id) : y ∈ Tree.preFL f T.kids ↔ MatchPath h f T.id y := by
  have hL : ∀ ks : List Tree, y ∈ Tree.preFL f ks ↔ ∃ k ∈ ks, y ∈ k.preF f := by
    intro ks
    induction ks with
    | nil => simp [Tree.preFL]
    | cons k r ihr => simp [Tree.preFL, ihr]
  rw [hL]
  constructor
  · rintro ⟨k, hk, hy⟩
    obtain ⟨l, h1, h2⟩ := (mem_preF (R.kid hk) y).1 hy
    exact ⟨l, ⟨k.id, h1, by rw [R.kids]; exact List.mem_map_of_mem hk⟩, h2⟩
  · rintro ⟨l, ⟨c, h1, hc⟩, h2⟩
    rw [R.kids, List.mem_map] at hc
    obtain ⟨k, hk, rfl⟩ := hc
    exact ⟨k, hk, (mem_preF (R.kid hk) y).2 ⟨l, h1, h2⟩⟩

theorem view_kids_perm (f : Id → Bool) (rev : Bool) (T : Tree) : (Tree.preFL f (T.view rev).kids).Perm (Tree.preFL f T.kids) := by
  cases rev with
  | false => exact .refl _
  | true => simp only [Tree.view, if_true, mirror_kids]; rw [← mirrorL_eq]; exact preFL_perm_mirrorL _ _

theorem mem_bodyOrder {T : Tree} (R : Rep h T) (f : Id → Bool) (o : IterOpts) (y : Id) : y ∈ bodyOrder f o T ↔ MatchPath h f T.id y := by
  rw [← mem_preFL R]
  unfold bodyOrder
  split
  · rw [((postFL_perm f _).trans (view_kids_perm f o.reverse T)).mem_iff]
  · rw [(view_kids_perm f o.reverse T).mem_iff]

/-- With a filter and without FILTER_ANY exactly those items are delivered that match together with all their ancestors below `x` (with SELF: including `x`,
and then `x` itself is delivered, too); the order is the order of the same iteration without filter. -/
theorem C28_hierarchical (H : Reach ms h) (x : Id) (f : Id → Bool) (options : Nat) (ho : (IterOpts.ofInt options).filterAny = false) :
    ∃ l l0, Delivers (fun n => deepIter n h x (some f) options) l ∧ Delivers (fun n => deepIter n h x none options) l0 ∧ l.Sublist l0 ∧
      ∀ y, y ∈ l ↔ if (IterOpts.ofInt options).self then f x = true ∧ (y = x ∨ MatchPath h f x y) else MatchPath h f x y := by
  have C := H.core
  have R := tree_rep C.wf C.forest x
  have hid := tree_id h x
  generalize h.tree x = T at R hid
  subst hid
  have h1 := iterHelper_delivers R f (IterOpts.ofInt options)
  have h2 := iterHelper_delivers R (fun _ => true) (IterOpts.ofInt options)
  have hsub : (bodyOrder f (IterOpts.ofInt options) T).Sublist (bodyOrder (fun _ => true) (IterOpts.ofInt options) T) := by
    unfold bodyOrder; split
    · exact postFL_sublist _ _
    · exact preFL_sublist _ _
  refine ⟨fullOrder f (IterOpts.ofInt options) T, _, ?_, h2, ?_, fun y => ?_⟩
  · have : (fun n => deepIter n h T.id (some f) options) = fun n => iterHelper n h T.id f (IterOpts.ofInt options) := by
      funext n; simp [deepIter, ho]
    rw [this]; exact h1
  · unfold fullOrder
    split
    · simp only [if_true]
      split
      · split
        · exact hsub.append (.refl _)
        · exact hsub.cons₂ _
      · exact List.nil_sublist _
    · exact hsub
  · unfold fullOrder
    split
    · by_cases hf : f T.id = true
      · simp only [hf, if_true, true_and]
        split
        · rw [List.mem_append, mem_bodyOrder R, List.mem_singleton, or_comm]
        · rw [List.mem_cons, mem_bodyOrder R]
      · simp [hf]
    · exact mem_bodyOrder R _ _ y

/-- With FILTER_ANY exactly the matching items are delivered, in the order of the same iteration without filter. -/
theorem C28_filter_any (H : Reach ms h) (x : Id) (f : Id → Bool) (options : Nat) (ho : (IterOpts.ofInt options).filterAny = true) :
    ∃ l0, Delivers (fun n => deepIter n h x none options) l0 ∧ Delivers (fun n => deepIter n h x (some f) options) (l0.filter f) := by
  have C := H.core
  have R := tree_rep C.wf C.forest x
  have h2 := iterHelper_delivers R (fun _ => true) (IterOpts.ofInt options)
  rw [tree_id] at h2
  refine ⟨_, h2, ?_⟩
  have := h2.map (List.filter f)
  simpa [deepIter, ho] using this

/-- `filtered_len` counts these items -/
theorem C28_filtered_len (H : Reach ms h) (x : Id) (f : Id → Bool) : ∃ l l0 : List Id,
    Delivers (fun n => filteredLen n h x f true) l.length ∧ l.Nodup ∧ (∀ y, y ∈ l ↔ MatchPath h f x y) ∧
    Delivers (fun n => filteredLen n h x f false) l0.length ∧ l0.Nodup ∧ (∀ y, y ∈ l0 ↔ (Below h x y ∧ y ≠ x) ∧ f y = true) := by
  obtain ⟨l0, d0, n0, m0⟩ := C26_each_once H x
  obtain ⟨l, l1, d1, d2, s, m⟩ := C28_hierarchical H x f 1 (by decide)
  have : l1 = l0 := by
    obtain ⟨N, d0⟩ := d0; obtain ⟨M, d2⟩ := d2
    have a := d0 (max N M) (by omega); have b := d2 (max N M) (by omega)
    have e : deepIter (max N M) h x none 1 = deepList (max N M) h x := by
      simp only [deepIter, iterHelper, IterOpts.ofInt, deepList, Nat.testBit]
      simp only [Option.map_inj_right, chOf]
      simp
      rfl
    simp only at a b
    rw [e, a] at b; simpa using b.symm
  subst this
  refine ⟨l, l1.filter f, ?_, n0.sublist s, ?_, ?_, n0.sublist List.filter_sublist, ?_⟩
  · have := d1.map List.length; simpa [filteredLen] using this
  · simpa [IterOpts.ofInt, Nat.testBit] using m
  · have := d0.map (fun l => (l.filter f).length); simpa [filteredLen] using this
  · intro y; rw [List.mem_filter, m0]

example : deepIter 20 demo 0 (some fun y => y ≠ 1) 1 = some [2, 3, 5] ∧ deepIter 20 demo 0 (some fun y => y ≠ 1) 17 = some [4, 2, 3, 5] ∧
    filteredLen 20 demo 0 (fun y => y ≠ 1) true = some 3 := by decide +kernel

/-! ### C30 -/

/-- `y` is `n` levels below `x` -/
def LevelBelow (h : Heap) (x : Id) (n : Nat) (y : Id) : Prop :=
  ∃ l : List Id, l.length = n + 1 ∧ l.head? = some x ∧ l.getLast? = some y ∧ l.IsChain fun a b => b ∈ h.kids a

/-- `len(x.deep)` is the number of items below `x` -/
theorem C30_deep_len (H : Reach ms h) (x : Id) : ∃ l : List Id, l.Nodup ∧ (∀ y, y ∈ l ↔ Below h x y ∧ y ≠ x) ∧ Delivers (fun n => deepLen n h x) l.length := by
  obtain ⟨l, d, n, m⟩ := C26_each_once H x
  exact ⟨l, n, m, d.map List.length⟩

/-- `x.max_depth` is the largest number of levels an item lies below `x` -/
theorem C30_max_depth (H : Reach ms h) (x : Id) : ∃ d, Delivers (fun n => maxDepth n h x) d ∧ (∃ y, LevelBelow h x d y) ∧
    ∀ n y, LevelBelow h x n y → n ≤ d := by
  have C := H.core
  have R := tree_rep C.wf C.forest x
  have hid := tree_id h x
  generalize h.tree x = T at R hid
  subst hid
  refine ⟨T.height, ⟨T.height + 2, fun n hn => ?_⟩, ?_, ?_⟩
  · simp only [maxDepth]
    split
    · next hk =>
      rw [R.kids] at hk
      cases T with
      | node i t v f l ks =>
        have : ks = [] := by simpa [Tree.kids] using hk
        subst this; simp [Tree.height, Tree.heightL]
    · have := maxDepth_loop R (T.height + 1) 0 (by omega) (by omega) n (by omega)
      have e : T.atLevel 0 = [T.id] := by cases T; rfl
      rwa [e] at this
  · have : T.atLevel T.height ≠ [] := fun e => by have := (atLevel_nil_iff T T.height).1 e; omega
    obtain ⟨y, hy⟩ := List.exists_mem_of_ne_nil _ this
    exact ⟨y, (mem_atLevel R _ y).1 hy⟩
  · intro n y hy
    have := (mem_atLevel R n y).2 hy
    by_contra hn
    have e := (atLevel_nil_iff T n).2 (by omega)
    rw [e] at this; simp at this

theorem atLevel_sublist (n : Nat) (T : Tree) : (T.atLevel n).Sublist T.ids := by
  induction T using Tree.ind generalizing n with
  | H i t v f l ks ih =>
    rw [Tree.ids_node]
    cases n with
    | zero => simp [Tree.atLevel]
    | succ n =>
      simp only [Tree.atLevel]
      refine List.Sublist.cons i ?_
      induction ks with
      | nil => simp [Tree.atLevelL]
      | cons k r ihr => rw [Tree.idsL_cons, Tree.atLevelL]; exact (ih k (by simp) n).append (ihr fun k' h' => ih k' (by simp [h']))

/-- `deep.siblings(n)` for `n ≥ 1` are exactly the items `n` levels below, in the order of `deep`; REVERSE reverses -/
theorem C30_siblings (H : Reach ms h) (x : Id) (n : Nat) (self : Bool) : ∃ l l0, Delivers (fun k => deepList k h x) l0 ∧
    Delivers (fun k => siblingsPlus k h x (n + 1) false self) l ∧ Delivers (fun k => siblingsPlus k h x (n + 1) true self) l.reverse ∧
    l.Sublist l0 ∧ l.Nodup ∧ ∀ y, y ∈ l ↔ LevelBelow h x (n + 1) y := by
  have C := H.core
  have R := tree_rep C.wf C.forest x
  have hid := tree_id h x
  generalize h.tree x = T at R hid
  subst hid
  have hsl : (T.atLevel (n + 1)).Sublist (Tree.idsL T.kids) := by
    have hn := R.ids_nodup C.wf C.forest
    have h1 := atLevel_sublist (n + 1) T
    cases T with
    | node i t v f l ks =>
      simp only [Tree.atLevel, Tree.kids, atLevelL_eq]
      clear hn h1 R
      induction ks with
      | nil => simp
      | cons k r ihr => rw [Tree.idsL_cons, List.flatMap_cons]; exact (atLevel_sublist n k).append ihr
  have hx : ∀ y ∈ T.atLevel (n + 1), y ≠ T.id := fun y hy => ((mem_idsL_kids C.wf C.forest R y).1 (hsl.subset hy)).2
  have hnd : (T.atLevel (n + 1)).Nodup := by
    have := R.ids_nodup C.wf C.forest
    exact this.sublist (atLevel_sublist _ _)
  have hfl : ∀ l : List Id, (∀ y ∈ l, y ≠ T.id) → l.filter (fun y => !(!self && y == T.id)) = l := by
    intro l hl
    rw [List.filter_eq_self]
    intro y hy
    have := hl y hy
    simp [this]
  refine ⟨T.atLevel (n + 1), T.deep.map Tree.id, C26_preorder R, ?_, ?_, hsl, hnd, fun y => mem_atLevel R _ y⟩
  · have := (sib_delivers (skip := fun y => !self && y == T.id) (R.view false) n).map (·.1)
    rw [view_id, hfl _ (by simpa [Tree.view] using hx)] at this
    simpa [siblingsPlus, Tree.view] using this
  · have := (sib_delivers (skip := fun y => !self && y == T.id) (R.view true) n).map (·.1)
    have e : (T.view true).atLevel (n + 1) = (T.atLevel (n + 1)).reverse := atLevel_mirror _ _
    rw [view_id, e, hfl _ (by intro y hy; exact hx y (List.mem_reverse.1 hy))] at this
    simpa [siblingsPlus] using this

/-- `deep.siblings(0)` is nothing, or with SELF the item itself -/
theorem C30_siblings_zero (x : Id) (rev self : Bool) (k : Nat) : siblingsPlus k h x 0 rev self = some (if self then [x] else []) := by
  simp [siblingsPlus]

/-- `deep.siblings(-1)` are exactly the items below `x` without children, in the order of `deep` -/
theorem C30_leaves (H : Reach ms h) (x : Id) (self multi : Bool) : ∃ l0, Delivers (fun k => deepList k h x) l0 ∧
    Delivers (fun k => siblingsMinus k h x 1 false self multi) (l0.filter fun y => h.kids y = []) := by
  obtain ⟨l0, d0, n0, m0⟩ := C26_each_once H x
  refine ⟨l0, d0, ?_⟩
  have := d0.map fun l => (l.filter fun y => h.kids y = []).filter fun y => self || y != x
  have e : (l0.filter fun y => decide (h.kids y = [])).filter (fun y => self || y != x) = l0.filter fun y => h.kids y = [] := by
    rw [List.filter_eq_self]
    intro y hy
    have := ((m0 y).1 (List.mem_filter.1 hy).1).2
    simp [this]
  rw [e] at this
  have ec : chOf false h = h.kids := rfl
  simpa [siblingsMinus, deepList, ec, Option.map_map, Function.comp_def] using this

/-- Disagreement: with a negative level `siblings` counts upwards from the leaves without stopping at the calling item: it delivers items that are not below it. -/
theorem C30_siblings_outside : siblingsMinus 20 demo 1 3 false false false = some [0] ∧ ¬ Below demo 1 0 := by
  refine ⟨by decide +kernel, fun b => ?_⟩
  have hc : (0 : Nat) < 1 := by decide
  cases b with
  | step _ hk =>
    rename_i p _
    have : demo.par 0 = some p := by
      obtain ⟨r, h1, h2, _⟩ := demo_core.wf.kid_parent p 0 hk
      simp [Heap.par, h1, h2]
    have e : demo.par 0 = none := by decide
    rw [e] at this; simp at this

example : deepLen 20 demo 0 = some 5 ∧ maxDepth 20 demo 0 = some 2 ∧ siblingsPlus 20 demo 0 1 false false = some [1, 2, 3, 5] ∧
    siblingsPlus 20 demo 0 2 false false = some [4] ∧ siblingsMinus 20 demo 0 1 false false false = some [4, 2, 3, 5] := by decide +kernel

end ITree
