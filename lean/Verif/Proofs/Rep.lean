import Verif.Proofs.Detach
import Verif.Spec.Rep
import Mathlib.Data.Fintype.Card
/-
Finite trees in a heap.
-/
namespace ITree

theorem shapeL_eq (l : List Tree) : Tree.shapeL l = l.map Tree.shape := by
  induction l with
  | nil => rfl
  | cons a l ih => simp [Tree.shapeL, ih]
theorem copyShapeL_eq (l : List Tree) : Tree.copyShapeL l = l.map Tree.copyShape := by
  induction l with
  | nil => rfl
  | cons a l ih => simp [Tree.copyShapeL, ih]
theorem repL_iff {h : Heap} (l : List Tree) : RepL h l ↔ ∀ T ∈ l, Rep h T := by
  induction l with
  | nil => simp [RepL]
  | cons a l ih => simp [RepL, ih]
theorem preL_eq (l : List Tree) : Tree.preL l = l.flatMap Tree.pre := by
  induction l with
  | nil => rfl
  | cons a l ih => simp [Tree.preL, ih]

/-- identities of a tree, root first -/
def Tree.ids (T : Tree) : List Id := T.pre.map Tree.id
/-- identities of a list of trees -/
def Tree.idsL (l : List Tree) : List Id := (Tree.preL l).map Tree.id

theorem Tree.ids_node (i t v f l ks) : (Tree.node i t v f l ks).ids = i :: Tree.idsL ks := by
  simp [Tree.ids, Tree.idsL, Tree.pre, Tree.id]
theorem Tree.idsL_cons (k ks) : Tree.idsL (k :: ks) = k.ids ++ Tree.idsL ks := by
  simp [Tree.ids, Tree.idsL, Tree.preL]
theorem Tree.idsL_nil : Tree.idsL [] = [] := rfl
theorem Tree.mem_idsL {x : Id} {l : List Tree} : x ∈ Tree.idsL l ↔ ∃ T ∈ l, x ∈ T.ids := by
  induction l with
  | nil => simp [Tree.idsL_nil]
  | cons a l ih => simp [Tree.idsL_cons, ih]
theorem Tree.id_mem_ids (T : Tree) : T.id ∈ T.ids := by cases T; simp [Tree.ids_node, Tree.id]

mutual
/-- number of nodes on the longest path -/
def Tree.depth : Tree → Nat
  | .node _ _ _ _ _ ks => Tree.depthL ks + 1
def Tree.depthL : List Tree → Nat
  | [] => 0
  | k :: ks => max k.depth (Tree.depthL ks)
end

theorem depth_le_depthL {k : Tree} {ks : List Tree} (hk : k ∈ ks) : k.depth ≤ Tree.depthL ks := by
  induction ks with
  | nil => simp at hk
  | cons a l ih =>
    simp only [Tree.depthL]
    rcases List.mem_cons.1 hk with rfl | hk
    · omega
    · have := ih hk; omega

/-- induction over trees -/
theorem Tree.ind {P : Tree → Prop} (H : ∀ i t v f l ks, (∀ k ∈ ks, P k) → P (.node i t v f l ks)) : ∀ T, P T := by
  intro T
  refine Tree.rec (motive_1 := P) (motive_2 := fun ks => ∀ k ∈ ks, P k) ?_ ?_ ?_ T
  · intro i t v f l ks ih; exact H i t v f l ks ih
  · intro k hk; simp at hk
  · intro a l h1 h2 k hk
    rcases List.mem_cons.1 hk with rfl | hk
    · exact h1
    · exact h2 k hk

theorem map_id_of {α} {f : α → α} {l : List α} (h : ∀ a ∈ l, f a = a) : l.map f = l := by
  induction l with
  | nil => rfl
  | cons a l ih => simp [h a (by simp), ih fun b hb => h b (by simp [hb])]

theorem Rep.snap {h : Heap} : ∀ {T : Tree}, Rep h T → ∀ n, T.depth ≤ n + 1 → h.snap n T.id = T := by
  intro T
  induction T using Tree.ind with
  | H i t v f l ks ih =>
    intro R n hn
    simp only [Rep, repL_iff] at R
    obtain ⟨h1, h2, h3, h4, h5, h6⟩ := R
    simp only [Tree.depth] at hn
    simp only [Heap.tag, Heap.flags, Heap.kids] at h1 h3 h5
    cases n with
    | zero =>
      have : ks = [] := by
        cases ks with
        | nil => rfl
        | cons a r =>
          have := depth_le_depthL (k := a) (ks := a :: r) (by simp)
          cases a; simp only [Tree.depth] at this; omega
      subst this
      simp only [Heap.snap, Tree.id, h1, h2, h3, h4]
    | succ n =>
      simp only [Heap.snap, Tree.id, h1, h2, h3, h4, h5, List.map_map]
      congr 1
      apply map_id_of
      intro k hk
      exact ih k hk (h6 k hk) n (by have := depth_le_depthL hk; omega)

theorem Rep.unique {h : Heap} : ∀ {T T' : Tree}, Rep h T → Rep h T' → T.id = T'.id → T = T' := by
  intro T T' R R' e
  have a := R.snap (max T.depth T'.depth) (by omega)
  have b := R'.snap (max T.depth T'.depth) (by omega)
  rw [e] at a; exact a.symm.trans b

theorem Tree.kids_of_mem_pre {T S : Tree} (hS : S ∈ T.pre) : S = T ∨ ∃ k ∈ T.kids, S ∈ k.pre := by
  cases T with
  | node i t v f l ks =>
    simp only [Tree.pre, List.mem_cons, preL_eq, List.mem_flatMap] at hS
    exact hS

theorem Tree.self_mem_pre (T : Tree) : T ∈ T.pre := by cases T; simp [Tree.pre]

theorem Rep.sub {h : Heap} {T : Tree} (R : Rep h T) : ∀ S ∈ T.pre, Rep h S := by
  induction T using Tree.ind with
  | H i t v f l ks ih =>
    intro S hS
    rcases Tree.kids_of_mem_pre hS with rfl | ⟨k, hk, hS⟩
    · exact R
    · simp only [Rep, repL_iff] at R
      exact ih k hk (R.2.2.2.2.2 k hk) S hS

theorem Tree.depth_sub {T S : Tree} (hS : S ∈ T.pre) : S = T ∨ S.depth < T.depth := by
  induction T using Tree.ind with
  | H i t v f l ks ih =>
    rcases Tree.kids_of_mem_pre hS with rfl | ⟨k, hk, hS⟩
    · left; rfl
    · right
      have : k.depth ≤ Tree.depthL ks := depth_le_depthL hk
      simp only [Tree.depth]
      rcases ih k hk hS with rfl | h2 <;> omega

theorem Rep.kids {h : Heap} {T : Tree} (R : Rep h T) : h.kids T.id = T.kids.map Tree.id := by
  cases T; simp only [Rep] at R; exact R.2.2.2.2.1
theorem Rep.kid {h : Heap} {T k : Tree} (R : Rep h T) (hk : k ∈ T.kids) : Rep h k := by
  cases T; simp only [Rep, repL_iff] at R; exact R.2.2.2.2.2 k hk

/-- a tree depends on its own nodes only -/
theorem Rep.congr {h h' : Heap} {T : Tree} (R : Rep h T) (H : ∀ i ∈ T.ids, h'.tag i = h.tag i ∧ (h'.node i).value = (h.node i).value ∧
    h'.flags i = h.flags i ∧ (h'.node i).link = (h.node i).link ∧ h'.kids i = h.kids i) : Rep h' T := by
  induction T using Tree.ind with
  | H i t v f l ks ih =>
    simp only [Rep, repL_iff] at R ⊢
    obtain ⟨h1, h2, h3, h4, h5, h6⟩ := R
    obtain ⟨e1, e2, e3, e4, e5⟩ := H i (by simp [Tree.ids_node])
    refine ⟨e1.trans h1, e2.trans h2, e3.trans h3, e4.trans h4, e5.trans h5, fun k hk => ih k hk (h6 k hk) fun j hj => H j ?_⟩
    rw [Tree.ids_node]; exact List.mem_cons_of_mem _ (Tree.mem_idsL.2 ⟨k, hk, hj⟩)

/-! ### existence -/

theorem Forest.exists_rep {h : Heap} (F : Forest h) (x : Id) : ∃ T : Tree, T.id = x ∧ Rep h T := by
  induction x using F.induction with
  | h x ih =>
    choose! g hg using ih
    refine ⟨.node x (h.tag x) (h.node x).value (h.flags x) (h.node x).link ((h.kids x).map g), rfl, ?_⟩
    simp only [Rep, repL_iff, true_and, List.map_map]
    constructor
    · symm; apply map_id_of; intro c hc; exact (hg c hc).1
    · intro T hT
      obtain ⟨c, hc, rfl⟩ := List.mem_map.1 hT
      exact (hg c hc).2

theorem forest_iff {h : Heap} : Forest h ↔ ∀ x, ∃ T : Tree, T.id = x ∧ Rep h T := by
  refine ⟨fun F x => F.exists_rep x, fun H => ⟨fun x => ?_⟩⟩
  obtain ⟨T, rfl, R⟩ := H x
  induction T using Tree.ind with
  | H i t v f l ks ih =>
    constructor
    intro c hc
    rw [R.kids] at hc
    obtain ⟨k, hk, rfl⟩ := List.mem_map.1 hc
    exact ih k hk (R.kid hk)

/-- along a path of a represented tree all identities are different, so depth is bounded by the number of allocated items -/
theorem Rep.path {h : Heap} {T : Tree} (R : Rep h T) : ∃ l : List Tree, l.length = T.depth ∧ (l.map Tree.id).Nodup ∧ (∀ S ∈ l, S ∈ T.pre) := by
  induction T using Tree.ind with
  | H i t v f l ks ih =>
    cases hks : ks with
    | nil => exact ⟨[.node i t v f l []], by simp [Tree.depth, Tree.depthL], by simp, by simp [Tree.pre]⟩
    | cons a r =>
      have : ∃ k ∈ ks, k.depth = Tree.depthL ks := by
        have aux : ∀ (m : List Tree), m ≠ [] → ∃ k ∈ m, k.depth = Tree.depthL m := by
          intro m
          induction m with
          | nil => simp
          | cons b m ihm =>
            intro _
            by_cases hm : m = []
            · subst hm; exact ⟨b, by simp, by simp [Tree.depthL]⟩
            · obtain ⟨k, hk, e⟩ := ihm hm
              by_cases hb : Tree.depthL m ≤ b.depth
              · exact ⟨b, by simp, by simp only [Tree.depthL]; omega⟩
              · exact ⟨k, by simp [hk], by simp only [Tree.depthL]; omega⟩
        exact aux ks (by simp [hks])
      obtain ⟨k, hk, hd⟩ := this
      obtain ⟨m, h1, h2, h3⟩ := ih k hk (R.kid (T := .node i t v f l ks) hk)
      rw [← hks]
      refine ⟨.node i t v f l ks :: m, by simp [h1, hd, Tree.depth], ?_, ?_⟩
      · rw [List.map_cons, List.nodup_cons]
        refine ⟨fun hm => ?_, h2⟩
        obtain ⟨S, hS, e⟩ := List.mem_map.1 hm
        have hSp : S ∈ (Tree.node i t v f l ks).pre := by
          simp only [Tree.pre, preL_eq]; exact List.mem_cons_of_mem _ (List.mem_flatMap.2 ⟨k, hk, h3 S hS⟩)
        have := Rep.unique (R.sub S hSp) R e
        have hd1 : S.depth ≤ k.depth := by
          rcases Tree.depth_sub (h3 S hS) with e' | e'
          · rw [e']
          · omega
        rw [this, Tree.depth] at hd1
        omega
      · intro S hS
        simp only [Tree.pre, preL_eq]
        rcases List.mem_cons.1 hS with e | hS
        · exact List.mem_cons.2 (Or.inl e)
        · exact List.mem_cons_of_mem _ (List.mem_flatMap.2 ⟨k, hk, h3 S hS⟩)

theorem Rep.ids_lt {h : Heap} (W : WF h) {T : Tree} (R : Rep h T) (hx : T.id < h.next) : ∀ i ∈ T.ids, i < h.next := by
  induction T using Tree.ind with
  | H i t v f l ks ih =>
    intro j hj
    rw [Tree.ids_node] at hj
    rcases List.mem_cons.1 hj with rfl | hj
    · exact hx
    · obtain ⟨k, hk, hj⟩ := Tree.mem_idsL.1 hj
      refine ih k hk (R.kid (T := .node i t v f l ks) hk) (W.kids_lt i _ ?_) j hj
      have := R.kids (T := .node i t v f l ks)
      simp only [Tree.id] at this
      rw [this]; exact List.mem_map_of_mem hk

theorem Rep.depth_le {h : Heap} (W : WF h) {T : Tree} (R : Rep h T) (hx : T.id < h.next) : T.depth ≤ h.next := by
  obtain ⟨l, h1, h2, h3⟩ := R.path
  have hlt : ∀ i ∈ l.map Tree.id, i < h.next := by
    intro i hi
    obtain ⟨S, hS, rfl⟩ := List.mem_map.1 hi
    exact R.ids_lt W hx _ (List.mem_map_of_mem (h3 S hS))
  have : (l.map Tree.id).Subperm (List.range h.next) := by
    apply List.Nodup.subperm h2
    intro i hi; rw [List.mem_range]; exact hlt i hi
  have := this.length_le
  simp at this; omega

theorem Rep.tree {h : Heap} (W : WF h) {T : Tree} (R : Rep h T) : h.tree T.id = T := by
  by_cases hx : T.id < h.next
  · exact R.snap _ (by have := R.depth_le W hx; omega)
  · have hk := (W.fresh T.id (by omega)).1
    apply R.snap
    rw [R.kids] at hk
    cases T with
    | node i t v f l ks =>
      simp only [Tree.kids, List.map_eq_nil_iff] at hk
      subst hk; simp [Tree.depth, Tree.depthL]

/-- in an acyclic heap `Heap.tree` is the tree of the item -/
theorem tree_rep {h : Heap} (W : WF h) (F : Forest h) (x : Id) : Rep h (h.tree x) := by
  obtain ⟨T, rfl, R⟩ := F.exists_rep x
  rw [R.tree W]; exact R

theorem tree_id (h : Heap) (x : Id) : (h.tree x).id = x := by
  unfold Heap.tree; cases h.next <;> rfl

/-! ### acyclicity -/

theorem Below.trans {h : Heap} {x y z : Id} (a : Below h x y) (b : Below h y z) : Below h x z := by
  induction b with
  | refl => exact a
  | step _ hc ih => exact ih.step hc

theorem Below.head {h : Heap} {x y z : Id} (hc : y ∈ h.kids x) (b : Below h y z) : Below h x z :=
  (Below.refl.step hc).trans b

theorem below_iff_ids {h : Heap} {T : Tree} (R : Rep h T) (y : Id) : Below h T.id y ↔ y ∈ T.ids := by
  constructor
  · intro b
    have : ∃ S ∈ T.pre, S.id = y := by
      induction b with
      | refl => exact ⟨T, T.self_mem_pre, rfl⟩
      | step bb hc ih =>
        clear bb
        obtain ⟨S, hS, rfl⟩ := ih
        have RS := R.sub S hS
        rw [RS.kids] at hc
        obtain ⟨k, hk, rfl⟩ := List.mem_map.1 hc
        refine ⟨k, ?_, rfl⟩
        clear RS hc R
        induction T using Tree.ind with
        | H i t v f l ks ih =>
          simp only [Tree.pre, preL_eq, List.mem_cons, List.mem_flatMap] at hS ⊢
          rcases hS with rfl | ⟨k', hk', hS⟩
          · exact Or.inr ⟨k, hk, k.self_mem_pre⟩
          · exact Or.inr ⟨k', hk', ih k' hk' hS⟩
    obtain ⟨S, hS, rfl⟩ := this
    exact List.mem_map_of_mem hS
  · intro hy
    induction T using Tree.ind with
    | H i t v f l ks ih =>
      rw [Tree.ids_node] at hy
      rcases List.mem_cons.1 hy with rfl | hy
      · exact Below.refl
      · obtain ⟨k, hk, hy⟩ := Tree.mem_idsL.1 hy
        refine Below.head ?_ (ih k hk (R.kid (T := .node i t v f l ks) hk) hy)
        rw [R.kids]; exact List.mem_map_of_mem hk

/-- no item is below one of its own children -/
theorem Forest.irrefl {h : Heap} (F : Forest h) {x c : Id} (hc : c ∈ h.kids x) : ¬ Below h c x := by
  intro b
  induction x using F.induction generalizing c with
  | h x ih =>
    -- the last step of the path leads from a parent of x
    have aux : ∀ y, Below h c y → y = c ∨ ∃ q, Below h c q ∧ y ∈ h.kids q := by
      intro y b; cases b with
      | refl => left; rfl
      | step b hc => right; exact ⟨_, b, hc⟩
    have aux2 : ∀ y, Below h c y → c = y ∨ ∃ d ∈ h.kids c, Below h d y := by
      intro y b
      induction b with
      | refl => left; rfl
      | step b hc ih2 =>
        rcases ih2 with rfl | ⟨d, hd, bd⟩
        · right; exact ⟨_, hc, Below.refl⟩
        · right; exact ⟨d, hd, bd.step hc⟩
    rcases aux2 x b with rfl | ⟨d, hd, bd⟩
    · exact ih c hc hc Below.refl
    · exact ih c hc hd (bd.step hc)

/-- acyclicity only depends on the children -/
theorem Forest.sub {h h' : Heap} (F : Forest h) (hk : ∀ p c, c ∈ h'.kids p → c ∈ h.kids p) : Forest h' :=
  Subrelation.wf (fun {c p} hc => hk p c hc) F

/-- adding the edge `p → x` keeps the heap acyclic if `p` is not `x` or below `x` -/
theorem Forest.addEdge {h h' : Heap} (F : Forest h) {p x : Id} (hb : ¬ Below h x p)
    (hk : ∀ q c, c ∈ h'.kids q → c ∈ h.kids q ∨ (q = p ∧ c = x)) : Forest h' := by
  have free : ∀ y, ¬ Below h y p → Acc (fun c p => c ∈ h'.kids p) y := by
    intro y
    induction y using F.induction with
    | h y ih =>
      intro hy
      constructor
      intro c hc
      rcases hk y c hc with h1 | ⟨rfl, _⟩
      · exact ih c h1 fun b => hy (Below.head h1 b)
      · exact (hy Below.refl).elim
  constructor
  intro y
  induction y using F.induction with
  | h y ih =>
    constructor
    intro c hc
    rcases hk y c hc with h1 | ⟨_, rfl⟩
    · exact ih c h1
    · exact free c hb

theorem AttachRel.forest {h h' : Heap} {p x : Id} {n : Nat} (A : AttachRel h h' p x n) (hn : n ≤ (h.kids p).length) (F : Forest h)
    (hb : ¬ Below h x p) : Forest h' := by
  refine F.addEdge hb fun q c hc => ?_
  by_cases e : q = p
  · subst e
    rw [A.kids_p, mem_insertIdx' hn] at hc
    rcases hc with rfl | hc
    · right; exact ⟨rfl, rfl⟩
    · left; exact hc
  · left; rwa [A.kids_o q e] at hc

theorem DetachRel.forest {h h' : Heap} {p x : Id} {n : Nat} (A : DetachRel h h' p x n) (F : Forest h) : Forest h' := by
  refine F.sub fun q c hc => ?_
  by_cases e : q = p
  · subst e; rw [A.kids_p] at hc; exact mem_of_eraseIdx hc
  · rwa [A.kids_o q e] at hc

theorem AllocRel.kids {h h' : Heap} {x : Id} {n : Node} (A : AllocRel h h' x n) (W : WF h) (i : Id) : h'.kids i = h.kids i := by
  obtain ⟨rfl, rfl, h1, h2, h3⟩ := A
  simp only [Heap.kids, Heap.alloc]
  split
  · next e => subst e; rw [h2]; exact ((W.fresh _ (Nat.le_refl _)).1).symm
  · rfl

theorem AllocRel.forest {h h' : Heap} {x : Id} {n : Node} (A : AllocRel h h' x n) (W : WF h) (F : Forest h) : Forest h' :=
  F.sub fun q c hc => by rwa [A.kids W] at hc

theorem Below.congr {h h' : Heap} (hk : ∀ i, h'.kids i = h.kids i) {x y : Id} : Below h' x y ↔ Below h x y := by
  constructor
  · intro b; induction b with
    | refl => exact Below.refl
    | step _ hc ih => exact ih.step (by rwa [hk] at hc)
  · intro b; induction b with
    | refl => exact Below.refl
    | step _ hc ih => exact ih.step (by rwa [hk])

theorem CEq.forest {h h' : Heap} (H : CEq h h') (F : Forest h) : Forest h' := F.sub fun q c hc => by rwa [H.kids] at hc

end ITree
