import Verif.Spec.Init
import Verif.Proofs.History
import Verif.Proofs.Gen
import Verif.Model.Query
/-
The constructor with a subtree: what the loop of `_iter_extend(init=True)` makes of its arguments.
-/
namespace ITree

theorem Shape.ind {P : Shape → Prop} (H : ∀ t v f l ks, (∀ k ∈ ks, P k) → P (.node t v f l ks)) : ∀ T, P T := by
  intro T
  refine Shape.rec (motive_1 := P) (motive_2 := fun ks => ∀ k ∈ ks, P k) ?_ ?_ ?_ T
  · intro t v f l ks ih; exact H t v f l ks ih
  · simp
  · intro k ks h1 h2 x hx
    rcases List.mem_cons.1 hx with rfl | hx
    · exact h1
    · exact h2 x hx

theorem orL_eq (f : Flags) (l : List Shape) : Shape.orL f l = l.map (Shape.or f) := by
  induction l with
  | nil => rfl
  | cons a l ih => simp [Shape.orL, ih]
theorem copyL_eq (l : List Shape) : Shape.copyL l = l.map Shape.copy := by
  induction l with
  | nil => rfl
  | cons a l ih => simp [Shape.copyL, ih]

theorem Shape.or_zero (s : Shape) : s.or 0#6 = s := by
  induction s using Shape.ind with
  | H t v f l ks ih =>
    simp only [Shape.or, orL_eq, Shape.node.injEq, true_and, BitVec.or_zero]
    exact (List.map_congr_left ih).trans (by simp)

theorem copyShape_eq (T : Tree) : T.copyShape = T.shape.copy := by
  induction T using Tree.ind with
  | H i t v f l ks ih =>
    simp only [Tree.copyShape, Tree.shape, Shape.copy, copyShapeL_eq, shapeL_eq, copyL_eq, List.map_map, Shape.node.injEq, true_and]
    refine ⟨rfl, List.map_congr_left fun k hk => ih k hk⟩

theorem Shape.copy_copy (s : Shape) : s.copy.copy = s.copy := by
  induction s using Shape.ind with
  | H t v f l ks ih =>
    simp only [Shape.copy, copyL_eq, List.map_map, Shape.node.injEq, true_and]
    refine ⟨?_, List.map_congr_left fun k hk => ih k hk⟩
    split <;> simp [Option.map_map, Function.comp_def]

theorem has_or_deep (g f : Flags) (hf : f &&& Flags.deepMask = f) : (g ||| f).has Flags.linkRoot = g.has Flags.linkRoot := by
  revert g f; decide +kernel

theorem Shape.copy_or {f : Flags} (hf : f &&& Flags.deepMask = f) (s : Shape) : (s.or f).copy = s.copy.or f := by
  induction s using Shape.ind with
  | H t v g l ks ih =>
    simp only [Shape.copy, Shape.or, orL_eq, copyL_eq, List.map_map, Shape.node.injEq, true_and, has_or_deep g f hf]
    exact List.map_congr_left fun k hk => ih k hk

/-! ### trees with flags added -/

mutual
def Tree.orF (f : Flags) : Tree → Tree
  | .node i t v g l ks => .node i t v (g ||| f) l (Tree.orFL f ks)
def Tree.orFL (f : Flags) : List Tree → List Tree
  | [] => []
  | k :: ks => Tree.orF f k :: Tree.orFL f ks
end

theorem orFL_eq (f : Flags) (l : List Tree) : Tree.orFL f l = l.map (Tree.orF f) := by
  induction l with
  | nil => rfl
  | cons a l ih => simp [Tree.orFL, ih]

theorem orF_id (f) (T : Tree) : (T.orF f).id = T.id := by cases T; rfl

theorem orF_shape (f) (T : Tree) : (T.orF f).shape = T.shape.or f := by
  induction T using Tree.ind with
  | H i t v g l ks ih =>
    simp only [Tree.orF, Tree.shape, Shape.or, orFL_eq, shapeL_eq, orL_eq, List.map_map, Shape.node.injEq, true_and]
    exact List.map_congr_left fun k hk => ih k hk

theorem idsL_eq (l : List Tree) : Tree.idsL l = l.flatMap Tree.ids := by
  induction l with
  | nil => rfl
  | cons a l ih => simp [Tree.idsL_cons, ih]

theorem orF_ids (f) (T : Tree) : (T.orF f).ids = T.ids := by
  induction T using Tree.ind with
  | H i t v g l ks ih =>
    simp only [Tree.orF, Tree.ids_node, orFL_eq, idsL_eq, List.flatMap_map, List.cons.injEq, true_and]
    simp only [List.flatMap]
    rw [List.map_congr_left fun k hk => ih k hk]

/-- all flags of the tree include `f` -/
def Tree.HasF (f : Flags) (T : Tree) : Prop := ∀ S ∈ T.pre, S.flags ||| f = S.flags

theorem orF_hasF (f) (T : Tree) : (T.orF f).HasF f := by
  induction T using Tree.ind with
  | H i t v g l ks ih =>
    intro S hS
    simp only [Tree.orF, Tree.pre, List.mem_cons, preL_eq, orFL_eq, List.mem_flatMap, List.mem_map] at hS
    rcases hS with rfl | ⟨_, ⟨k, hk, rfl⟩, hS⟩
    · simp only [Tree.flags, BitVec.or_assoc, BitVec.or_self]
    · exact ih k hk S hS

theorem rep_orF {h h2 : Heap} {f : Flags} {T : Tree} (R : Rep h T) (H : ∀ i ∈ T.ids, h2.tag i = h.tag i ∧ (h2.node i).value = (h.node i).value ∧
    h2.flags i = h.flags i ||| f ∧ (h2.node i).link = (h.node i).link ∧ h2.kids i = h.kids i) : Rep h2 (T.orF f) := by
  induction T using Tree.ind with
  | H i t v g l ks ih =>
    simp only [Rep, repL_iff] at R
    obtain ⟨a1, a2, a3, a4, a5, a6⟩ := R
    obtain ⟨b1, b2, b3, b4, b5⟩ := H i (by simp [Tree.ids_node])
    simp only [Tree.orF, Rep, repL_iff, orFL_eq]
    refine ⟨b1.trans a1, b2.trans a2, by rw [b3, a3], b4.trans a4, ?_, ?_⟩
    · rw [b5, a5, List.map_map]
      exact List.map_congr_left fun k _ => (orF_id f k).symm
    · intro S hS
      obtain ⟨k, hk, rfl⟩ := List.mem_map.1 hS
      exact ih k hk (a6 k hk) fun j hj => H j (by rw [Tree.ids_node]; exact List.mem_cons_of_mem _ (Tree.mem_idsL.2 ⟨k, hk, hj⟩))

theorem rep_flags_mem {h : Heap} {T : Tree} (R : Rep h T) {f : Flags} (hf : T.HasF f) : ∀ i ∈ T.ids, h.flags i ||| f = h.flags i := by
  intro i hi
  obtain ⟨S, hS, rfl⟩ := List.mem_map.1 hi
  have := hf S hS
  have r := R.sub S hS
  cases S
  simp only [Rep, Tree.id, Tree.flags] at r this ⊢
  rw [r.2.2.1]; exact this

/-! ### one round -/

theorem setFlagsInit_node (f : Flags) : ∀ (l : List Id) (h : Heap) (i : Id), (setFlagsInit h f l).node i =
    if i ∈ l then { h.node i with flags := (h.node i).flags ||| f } else h.node i := by
  intro l
  induction l with
  | nil => intro h i; simp [setFlagsInit]
  | cons x xs ih =>
    intro h i
    simp only [setFlagsInit, ih, Heap.modify, List.mem_cons]
    by_cases hx : i = x
    · subst hx
      by_cases hi : i ∈ xs
      · simp [hi, BitVec.or_assoc, BitVec.or_self]
      · simp [hi]
    · by_cases hi : i ∈ xs <;> simp [hi, hx]

theorem setFlagsInit_next (f : Flags) : ∀ (l : List Id) (h : Heap), (setFlagsInit h f l).next = h.next := by
  intro l
  induction l with
  | nil => intro h; rfl
  | cons x xs ih => intro h; simp only [setFlagsInit, ih]; rfl

open Classical in
/-- what a round leaves alone: items other than `p` keep everything except flags, which may get `f` if the item lies in the tree of one of the parentless arguments -/
structure FlagRel (h h2 : Heap) (p : Id) (f : Flags) (as : List Arg) : Prop where
  next : h.next ≤ h2.next
  data : ∀ i, i < h.next → h2.tag i = h.tag i ∧ (h2.node i).value = (h.node i).value ∧ (h2.node i).link = (h.node i).link
  kids : ∀ i, i < h.next → i ≠ p → h2.kids i = h.kids i
  flags : ∀ i, i < h.next → h2.flags i = h.flags i ∨ (i ≠ p ∧ h2.flags i = h.flags i ||| f ∧ ∃ j, Arg.item j ∈ as ∧ h.par j = none ∧ Below h j i)
  par : ∀ i, i < h.next → h2.par i = if h.par i = none ∧ Arg.item i ∈ as then some p else h.par i

theorem initRound {h : Heap} {p : Id} {f : Flags} {a : Arg} {idx : Nat} (C : Core h) (hp : p < h.next) (hs : (h.node p).stale = none) (hpp : (h.node p).parent = none)
    (ha : ∀ i, a = .item i → i < h.next ∧ i ≠ p) {h2 : Heap} (e2 : h2 = initStep h p idx f a) :
    ∃ T : Tree, Rep h2 T ∧ T.HasF f ∧ p ∉ T.ids ∧ h2.kids p = h.kids p ++ [T.id] ∧ MadeAt h f [] a T ∧ FlagRel h h2 p f [a] ∧ Core h2 ∧
      (h2.node p).stale = none ∧ (h2.node p).parent = none ∧ (∀ i ∈ T.ids, i < h2.next) := by
  have P := extPick_spec C.wf a (fun i e => (ha i e).1)
  have A := extendOne_attach C.wf hp hs idx a (fun i e => (ha i e).1)
  simp only [initStep] at e2
  generalize hh' : extendOne h p idx a = h' at A e2
  have hpn := P.node p hp
  generalize he1 : (extPick h a).1 = h1 at P A hpn
  generalize hx : (extPick h a).2 = x at P A
  have hk : h1.kids p = h.kids p := by simp only [Heap.kids, hpn]
  have hple : p < h1.next := Nat.lt_of_lt_of_le hp P.unchanged.next
  have hpp1 : (h1.node p).parent = none := by rw [hpn]; exact hpp
  have hne : x ≠ p := by
    rcases P.what with ⟨i, e0, _, e, _⟩ | ⟨i, e0, _, c⟩ | ⟨v, e0, c⟩
    · rw [e]; exact (ha i e0).2
    · rw [c.root]; omega
    · rw [c.id]; omega
  have C1 : Core h1 := ⟨P.wf, P.forest C.forest, P.nocov C.nocov⟩
  have hnb := not_below_top P.wf hpp1 hne
  have K' := A.keeps C1 hple P.lt (by rw [hk]) P.par hnb
  have C' : Core h' := K'.core
  -- the tree of the picked item
  have R1 := tree_rep P.wf C1.forest x
  generalize hT0 : h1.tree x = T0 at R1
  have hid : T0.id = x := by rw [← hT0, tree_id]
  have hpT : p ∉ T0.ids := fun hm => hnb (by rw [← hid]; exact (below_iff_ids R1 p).2 hm)
  have hTl : ∀ i ∈ T0.ids, i < h1.next := R1.ids_lt P.wf (by rw [hid]; exact P.lt)
  have R' : Rep h' T0 := R1.congr fun i hi => ⟨A.tag i, A.value i, A.flags i, A.link i, A.kids_o i (fun e => hpT (e ▸ hi))⟩
  have hkp : h'.kids p = h.kids p ++ [x] := by
    rw [A.kids_p, hk, List.insertIdx_length_self]
  have htree : h'.tree x = T0 := by rw [← hid]; exact R'.tree C'.wf
  have hl : x :: (h'.tree x).deep.map Tree.id = T0.ids := by
    rw [htree]; cases T0 with | node i t v g l ks => simp only [Tree.id] at hid; subst hid; rfl
  have e2' : h2 = if f = 0#6 then h' else setFlagsInit h' f T0.ids := by
    rw [e2, hkp]; simp only [List.getLast?_append, List.getLast?_singleton, Option.some_or]; rw [hl]
  have hnode : ∀ i, h2.node i = if i ∈ T0.ids then { h'.node i with flags := (h'.node i).flags ||| f } else h'.node i := by
    intro i
    by_cases hf : f = 0#6
    · rw [e2', if_pos hf, hf, BitVec.or_zero]; simp
    · rw [e2', if_neg hf, setFlagsInit_node]
  have hnext : h2.next = h'.next := by
    rw [e2']; split
    · rfl
    · exact setFlagsInit_next _ _ _
  have D : DataEq h' h2 := by
    rw [e2']; split
    · exact DataEq.refl _
    · exact setFlagsInit_data _ _ _
  have C2 := (D.keeps C').core
  have hpar2 : ∀ i, h2.par i = h'.par i := D.str.par
  have R2 : Rep h2 (T0.orF f) := rep_orF R' fun i hi => by
    have := hnode i
    rw [if_pos hi] at this
    simp only [Heap.tag, Heap.flags, Heap.kids, this, and_self]
  have hparO : ∀ i, i ≠ x → h'.par i = h1.par i := fun i e => (A.par_o i e).par
  have hparX : h'.par x = some p := by
    obtain ⟨a, b, _, _, e⟩ := A.par_x
    simp [Heap.par, e]
  have hF : FlagRel h h2 p f [a] := by
    have hU := P.unchanged
    refine ⟨by rw [hnext, A.next]; exact hU.next, fun i hi => ?_, fun i hi hip => ?_, fun i hi => ?_, fun i hi => ?_⟩
    · have hn := hnode i
      refine ⟨?_, ?_, ?_⟩
      · rw [← hU.tag i hi, ← A.tag i]; simp only [Heap.tag, hn]; split <;> rfl
      · rw [← hU.value i hi, ← A.value i]; simp only [hn]; split <;> rfl
      · rw [← hU.link i hi, ← A.link i]; simp only [hn]; split <;> rfl
    · rw [← hU.kids i hi id, ← A.kids_o i hip]; exact D.str.kids i
    · have hfl : h2.flags i = if i ∈ T0.ids then h.flags i ||| f else h.flags i := by
        have := hnode i
        have e : (h'.node i).flags = h.flags i := (A.flags i).trans (hU.flags i hi)
        simp only [Heap.flags] at e ⊢
        rw [this]; split <;> simp [e]
      by_cases hm : i ∈ T0.ids
      · rcases P.what with ⟨j, ej, hj, exj, eh⟩ | ⟨j, ej, hj, c⟩ | ⟨v, ej, c⟩
        · right
          refine ⟨fun e => hpT (e ▸ hm), by rw [hfl, if_pos hm], j, by simp [ej], hj, ?_⟩
          have := (below_iff_ids R1 i).2 hm
          rw [hid, exj, eh] at this
          exact this
        · exfalso
          obtain ⟨T', i1, i2, i3, i4⟩ := c.rep
          have : T' = T0 := Rep.unique i2 R1 (i1.trans hid.symm)
          rw [← this] at hm
          have := (i4 i hm).1; omega
        · exfalso
          have b := (below_iff_ids R1 i).2 hm
          rw [hid] at b
          have hk0 : h1.kids x = [] := by rw [c.eq, c.id]; simp [Heap.kids, Heap.alloc]
          have := below_leaf hk0 b
          rw [c.id] at this; omega
      · left; rw [hfl, if_neg hm]
    · rw [hpar2]
      by_cases hix : i = x
      · subst hix
        have hcond : h.par i = none ∧ Arg.item i ∈ [a] := by
          rcases P.what with ⟨j, ej, hj, exj, eh⟩ | ⟨j, ej, hj, c⟩ | ⟨v, ej, c⟩
          · subst exj; exact ⟨hj, by simp [ej]⟩
          · exfalso; have := c.root; omega
          · exfalso; have := c.id; omega
        rw [if_pos hcond, hparX]
      · rw [hparO i hix, hU.par i hi id]
        have : ¬ (h.par i = none ∧ Arg.item i ∈ [a]) := by
          rintro ⟨q1, q2⟩
          have q2 : a = Arg.item i := (List.mem_singleton.1 q2).symm
          rcases P.what with ⟨j, ej, hj, exj, eh⟩ | ⟨j, ej, hj, c⟩ | ⟨v, ej, c⟩
          · rw [q2] at ej; cases ej; exact hix exj.symm
          · rw [q2] at ej; cases ej; exact hj q1
          · rw [q2] at ej; cases ej
        rw [if_neg this]
  have hstp : (h2.node p).stale = none := by rw [D.str.stale]; exact A.stale_p
  have hparp : (h2.node p).parent = none := by
    have e := hF.par p hp
    have hpn : h.par p = none := by simp [Heap.par, hpp]
    have hc : ¬ (h.par p = none ∧ Arg.item p ∈ [a]) := by
      rintro ⟨_, q⟩
      exact (ha p (List.mem_singleton.1 q).symm).2 rfl
    rw [if_neg hc, hpn] at e
    simpa [Heap.par] using e
  refine ⟨T0.orF f, R2, orF_hasF f T0, by rw [orF_ids]; exact hpT, ?_, ?_, hF, C2, hstp, hparp, ?_⟩
  · rw [D.str.kids, hkp, orF_id, hid]
  · rcases P.what with ⟨j, ej, hj, exj, eh⟩ | ⟨j, ej, hj, c⟩ | ⟨v, ej, c⟩
    · subst ej
      simp only [MadeAt, hj, List.not_mem_nil, not_false_eq_true, and_self, if_true]
      have : T0 = h.tree j := by rw [← hT0, exj, eh]
      exact ⟨by rw [orF_ids, this], by rw [orF_shape, this]⟩
    · subst ej
      simp only [MadeAt, hj, false_and, if_false]
      obtain ⟨T', i1, i2, i3, i4⟩ := c.rep
      have : T' = T0 := Rep.unique i2 R1 (i1.trans hid.symm)
      subst this
      exact ⟨fun i hi => (i4 i (by rwa [orF_ids] at hi)).1, by rw [orF_shape, i3, copyShape_eq]⟩
    · subst ej
      have : T0 = .node x .noTag v 0#6 none [] := by
        refine Rep.unique R1 ?_ hid
        simp only [Rep, RepL, c.eq, c.id, Heap.tag, Heap.flags, Heap.kids, Heap.alloc, if_true, List.map_nil, and_self]
      simp only [MadeAt]
      refine ⟨by rw [orF_shape, this]; simp [Tree.shape, Tree.shapeL, Shape.or, Shape.orL], ?_⟩
      rw [orF_ids, this]
      intro j hj
      simp only [Tree.ids_node, Tree.idsL_nil, List.mem_singleton] at hj
      have := c.id; omega
  · rw [orF_ids, hnext, A.next]; exact hTl

/-! ### the loop -/

theorem orF_orF (f : Flags) (T : Tree) : (T.orF f).orF f = T.orF f := by
  induction T using Tree.ind with
  | H i t v g l ks ih =>
    simp only [Tree.orF, orFL_eq, List.map_map, Tree.node.injEq, true_and, BitVec.or_assoc, BitVec.or_self]
    exact List.map_congr_left fun k hk => ih k hk

/-- a tree without `p` after the flag changes: same items, same flags up to `f` -/
theorem FlagRel.tree {h h2 : Heap} {p : Id} {f : Flags} {as : List Arg} (F : FlagRel h h2 p f as) : ∀ {T : Tree}, Rep h T → p ∉ T.ids → (∀ i ∈ T.ids, i < h.next) →
    ∃ T2, Rep h2 T2 ∧ T2.id = T.id ∧ T2.ids = T.ids ∧ T2.orF f = T.orF f := by
  intro T
  induction T using Tree.ind with
  | H i t v g l ks ih =>
    intro R hp hlt
    simp only [Rep, repL_iff] at R
    obtain ⟨a1, a2, a3, a4, a5, a6⟩ := R
    have hi : i < h.next := hlt i (by simp [Tree.ids_node])
    have hip : i ≠ p := fun e => hp (by simp [Tree.ids_node, e])
    have sub : ∀ k ∈ ks, ∀ j ∈ k.ids, j ∈ (Tree.node i t v g l ks).ids := fun k hk j hj => by
      rw [Tree.ids_node]; exact List.mem_cons_of_mem _ (Tree.mem_idsL.2 ⟨k, hk, hj⟩)
    have hks : ∃ ks2 : List Tree, (∀ k ∈ ks2, Rep h2 k) ∧ ks2.map Tree.id = ks.map Tree.id ∧ ks2.flatMap Tree.ids = ks.flatMap Tree.ids ∧ ks2.map (Tree.orF f) = ks.map (Tree.orF f) := by
      have : ∀ l : List Tree, (∀ k ∈ l, k ∈ ks) → ∃ ks2 : List Tree, (∀ k ∈ ks2, Rep h2 k) ∧ ks2.map Tree.id = l.map Tree.id ∧ ks2.flatMap Tree.ids = l.flatMap Tree.ids ∧
          ks2.map (Tree.orF f) = l.map (Tree.orF f) := by
        intro l
        induction l with
        | nil => intro _; exact ⟨[], by simp, rfl, rfl, rfl⟩
        | cons k l ihl =>
          intro hl
          obtain ⟨K, q1, q2, q3, q4⟩ := ihl fun k hk => hl k (by simp [hk])
          have hk := hl k (by simp)
          obtain ⟨T2, r1, r2, r3, r4⟩ := ih k hk (a6 k hk) (fun hm => hp (sub k hk p hm)) (fun j hj => hlt j (sub k hk j hj))
          refine ⟨T2 :: K, ?_, by simp [r2, q2], by simp [r3, q3], by simp [r4, q4]⟩
          intro x hx
          rcases List.mem_cons.1 hx with rfl | hx
          · exact r1
          · exact q1 x hx
      exact this ks fun _ h => h
    obtain ⟨K, q1, q2, q3, q4⟩ := hks
    obtain ⟨b1, b2, b3⟩ := F.data i hi
    refine ⟨.node i t v (h2.flags i) l K, ?_, rfl, ?_, ?_⟩
    · simp only [Rep, repL_iff]
      exact ⟨b1.trans a1, b2.trans a2, trivial, b3.trans a4, by rw [F.kids i hi hip, a5, q2], q1⟩
    · simp only [Tree.ids_node, idsL_eq, q3]
    · simp only [Tree.orF, orFL_eq, q4, Tree.node.injEq, and_true, true_and]
      rcases F.flags i hi with e | ⟨_, e, _⟩ <;> rw [e, a3]
      rw [BitVec.or_assoc, BitVec.or_self]

theorem FlagRel.tree_eq {h h2 : Heap} {p : Id} {f : Flags} {as : List Arg} (F : FlagRel h h2 p f as) (C : Core h) (C2 : Core h2) (hpp : (h.node p).parent = none) {i : Id}
    (hi : i < h.next) (hip : i ≠ p) : (h2.tree i).ids = (h.tree i).ids ∧ (h2.tree i).shape.or f = (h.tree i).shape.or f := by
  have R := tree_rep C.wf C.forest i
  have hl := R.ids_lt C.wf (by rw [tree_id]; exact hi)
  have hp : p ∉ (h.tree i).ids := fun hm => not_below_top C.wf hpp hip (by have := (below_iff_ids R p).2 hm; rwa [tree_id] at this)
  obtain ⟨T2, r1, r2, r3, r4⟩ := F.tree R hp hl
  have : h2.tree i = T2 := by
    have := r1.tree C2.wf
    rwa [r2, tree_id] at this
  rw [this]
  exact ⟨r3, by rw [← orF_shape, ← orF_shape, r4]⟩

theorem FlagRel.refl (h : Heap) (p : Id) (f : Flags) : FlagRel h h p f [] :=
  ⟨Nat.le_refl _, fun _ _ => ⟨rfl, rfl, rfl⟩, fun _ _ _ => rfl, fun _ _ => Or.inl rfl, fun _ _ => by simp⟩

theorem FlagRel.trans {h h2 h3 : Heap} {p : Id} {f : Flags} {a : Arg} {as : List Arg} (F : FlagRel h h2 p f [a]) (G : FlagRel h2 h3 p f as) (C : Core h) (C2 : Core h2)
    (hpp : (h.node p).parent = none) (ha : ∀ i, Arg.item i ∈ as → i < h.next ∧ i ≠ p) : FlagRel h h3 p f (a :: as) := by
  have lt : ∀ i, i < h.next → i < h2.next := fun i hi => Nat.lt_of_lt_of_le hi F.next
  refine ⟨Nat.le_trans F.next G.next, fun i hi => ?_, fun i hi hip => (G.kids i (lt i hi) hip).trans (F.kids i hi hip), fun i hi => ?_, fun i hi => ?_⟩
  · obtain ⟨a1, a2, a3⟩ := F.data i hi
    obtain ⟨b1, b2, b3⟩ := G.data i (lt i hi)
    exact ⟨b1.trans a1, b2.trans a2, b3.trans a3⟩
  · rcases G.flags i (lt i hi) with e | ⟨e1, e2, j, j1, j2, j3⟩
    · rcases F.flags i hi with e' | ⟨e1', e2', j, j1, j2, j3⟩
      · left; rw [e, e']
      · right; exact ⟨e1', by rw [e, e2'], j, by simp [List.mem_singleton.1 j1], j2, j3⟩
    · right
      refine ⟨e1, ?_, j, by simp [j1], ?_, ?_⟩
      · rcases F.flags i hi with e' | ⟨_, e2', _⟩
        · rw [e2, e']
        · rw [e2, e2', BitVec.or_assoc, BitVec.or_self]
      · have := F.par j (ha j j1).1
        rw [j2] at this
        split at this
        · exact absurd this (by simp)
        · exact this.symm
      · have R := tree_rep C.wf C.forest j
        have R2 := tree_rep C2.wf C2.forest j
        have := (below_iff_ids R2 i).1 (by rw [tree_id]; exact j3)
        rw [(F.tree_eq C C2 hpp (ha j j1).1 (ha j j1).2).1] at this
        have := (below_iff_ids R i).2 this
        rwa [tree_id] at this
  · rw [G.par i (lt i hi), F.par i hi]
    by_cases h1 : h.par i = none <;> by_cases h2 : Arg.item i = a <;> by_cases h3 : Arg.item i ∈ as <;> simp [h1, h2, h3] <;> simp [h2, h3] at *

theorem initLoop_spec {p : Id} {f : Flags} (hf : f &&& Flags.deepMask = f) : ∀ (as : List Arg) {h : Heap} (idx : Nat), Core h → p < h.next → (h.node p).stale = none →
    (h.node p).parent = none → (∀ i, Arg.item i ∈ as → i < h.next ∧ i ≠ p) →
    ∃ Ts : List Tree, (initLoop h p idx f as).kids p = h.kids p ++ Ts.map Tree.id ∧ (∀ T ∈ Ts, Rep (initLoop h p idx f as) T ∧ T.HasF f ∧ p ∉ T.ids) ∧
      Ts.length = as.length ∧ (∀ (k : Nat) a T, as[k]? = some a → Ts[k]? = some T → MadeAt h f (as.take k) a T) ∧
      FlagRel h (initLoop h p idx f as) p f as ∧ Core (initLoop h p idx f as) := by
  intro as
  induction as with
  | nil => intro h idx C hp hs hpp _; exact ⟨[], by simp [initLoop], by simp, rfl, by simp, FlagRel.refl _ _ _, C⟩
  | cons a as ih =>
    intro h idx C hp hs hpp ha
    simp only [initLoop]
    generalize e2 : initStep h p idx f a = h2
    obtain ⟨T, t1, t2, t3, t4, t5, t6, t7, t8, t9, t10⟩ := initRound C hp hs hpp (fun i e => ha i (by simp [e])) e2.symm
    have ha2 : ∀ i, Arg.item i ∈ as → i < h.next ∧ i ≠ p := fun i hi => ha i (by simp [hi])
    obtain ⟨Ts, s1, s2, s3, s4, s5, s6⟩ := ih (idx + 1) t7 (Nat.lt_of_lt_of_le hp t6.next) t8 t9 (fun i hi => ⟨Nat.lt_of_lt_of_le (ha2 i hi).1 t6.next, (ha2 i hi).2⟩)
    generalize initLoop h2 p (idx + 1) f as = h3 at *
    refine ⟨T :: Ts, by rw [s1, t4]; simp, ?_, by simp [s3], ?_, t6.trans s5 C t7 hpp ha2, s6⟩
    · intro S hS
      rcases List.mem_cons.1 hS with rfl | hS
      · refine ⟨t1.congr fun i hi => ?_, t2, t3⟩
        have hl := t10 i hi
        obtain ⟨a1, a2, a3⟩ := s5.data i hl
        refine ⟨a1, a2, ?_, a3, s5.kids i hl (fun e => t3 (e ▸ hi))⟩
        rcases s5.flags i hl with e | ⟨_, e, _⟩
        · exact e
        · rw [e]; exact rep_flags_mem t1 t2 i hi
      · exact s2 S hS
    · intro k b S hk hS
      cases k with
      | zero =>
        simp only [List.getElem?_cons_zero, Option.some.injEq] at hk hS
        subst hk hS; simpa using t5
      | succ k =>
        simp only [List.getElem?_cons_succ] at hk hS
        have M := s4 k b S hk hS
        cases b with
        | val v => simp only [MadeAt] at M ⊢; exact ⟨M.1, fun j hj => Nat.le_trans t6.next (M.2 j hj)⟩
        | item i =>
          have hi := ha2 i (List.mem_of_getElem? hk)
          have par := t6.par i hi.1
          have te := t6.tree_eq C t7 hpp hi.1 hi.2
          have tc : (h2.tree i).shape.copy.or f = (h.tree i).shape.copy.or f := by rw [← Shape.copy_or hf, te.2, Shape.copy_or hf]
          simp only [MadeAt, List.take_succ_cons, List.mem_cons, List.mem_singleton] at M par ⊢
          by_cases h1 : h.par i = none <;> by_cases h2 : Arg.item i = a <;> by_cases h3 : Arg.item i ∈ as.take k <;>
            simp [h1, h2, h3] at M par ⊢ <;>
            (try simp [par, h1, h2, h3] at M) <;>
            first
              | exact ⟨M.1.trans te.1, M.2.trans te.2⟩
              | exact ⟨fun j hj => Nat.le_trans t6.next (M.1 j hj), M.2.trans tc⟩

/-! ### new items with children -/

theorem newFrom_spec {h : Heap} (C : Core h) (t : Tag) (v : Val) (sub : List Arg) (f : Flags) (ha : ∀ i, Arg.item i ∈ sub → i < h.next) :
    ∃ (h' : Heap) (Ts : List Tree), newFrom h t v sub f = (h', .ok h.next) ∧ Core h' ∧ Rep h' (.node h.next t v f none Ts) ∧ h'.par h.next = none ∧
      Ts.length = sub.length ∧ (∀ (k : Nat) a T, sub[k]? = some a → Ts[k]? = some T → MadeAt h (f &&& Flags.deepMask) (sub.take k) a T) ∧
      h.next < h'.next ∧ FlagRel h h' h.next (f &&& Flags.deepMask) sub := by
  have A : AllocRel h (h.alloc { tag := t, value := v, flags := f, fams := some [] }).1 h.next { tag := t, value := v, flags := f, fams := some [] } :=
    ⟨rfl, rfl, rfl, rfl, Or.inr rfl⟩
  have C0 := (A.keeps C rfl).core
  have U := A.frame
  have hk := A.kids C.wf
  have hn : (h.alloc { tag := t, value := v, flags := f, fams := some [] }).1.node h.next = { tag := t, value := v, flags := f, fams := some [] } := by simp [Heap.alloc]
  have hnx : (h.alloc { tag := t, value := v, flags := f, fams := some [] }).1.next = h.next + 1 := rfl
  have hno : ∀ i, i < h.next → (h.alloc { tag := t, value := v, flags := f, fams := some [] }).1.node i = h.node i := by
    intro i e; simp only [Heap.alloc]; rw [if_neg (by omega)]
  simp only [newFrom]
  have hid : (h.alloc { tag := t, value := v, flags := f, fams := some [] }).2 = h.next := rfl
  rw [hid]
  generalize (h.alloc { tag := t, value := v, flags := f, fams := some [] }).1 = h0 at *
  have hd : (f &&& Flags.deepMask) &&& Flags.deepMask = f &&& Flags.deepMask := by rw [BitVec.and_assoc, BitVec.and_self]
  have lt : ∀ i, i < h.next → i < h0.next := fun i hi => by omega
  have htree : ∀ i, i < h.next → h0.tree i = h.tree i := by
    intro i hi
    have R := tree_rep C.wf C.forest i
    have R0 : Rep h0 (h.tree i) := R.congr fun j hj => by
      have hj := R.ids_lt C.wf (by rw [tree_id]; exact hi) j hj
      exact ⟨U.tag j hj, U.value j hj, U.flags j hj, U.link j hj, U.kids j hj id⟩
    have := R0.tree C0.wf
    rwa [tree_id] at this
  obtain ⟨Ts, s1, s2, s3, s4, s5, s6⟩ := initLoop_spec hd sub 0 C0 (by omega) (by rw [hn]) (by rw [hn]) (p := h.next) (fun i hi => ⟨lt i (ha i hi), by have := ha i hi; omega⟩)
  generalize initLoop h0 h.next 0 (f &&& Flags.deepMask) sub = h' at *
  have hk0 : h0.kids h.next = [] := by simp [Heap.kids, hn]
  have hpn : h0.par h.next = none := by simp [Heap.par, hn]
  have bl : ∀ j i, j < h.next → Below h0 j i → Below h j i := by
    intro j i hj hb
    have R := tree_rep C.wf C.forest j
    have R0 := tree_rep C0.wf C0.forest j
    have := (below_iff_ids R0 i).1 (by rw [tree_id]; exact hb)
    rw [htree j hj] at this
    have := (below_iff_ids R i).2 this
    rwa [tree_id] at this
  refine ⟨h', Ts, rfl, s6, ?_, ?_, s3, ?_, by have := s5.next; omega, ?_⟩
  · obtain ⟨d1, d2, d3⟩ := s5.data h.next (by omega)
    simp only [Rep, repL_iff]
    refine ⟨by rw [d1]; simp [Heap.tag, hn], by rw [d2, hn], ?_, by rw [d3, hn], by rw [s1, hk0]; rfl, fun T hT => (s2 T hT).1⟩
    rcases s5.flags h.next (by omega) with e | ⟨e, _⟩
    · rw [e]; simp [Heap.flags, hn]
    · exact absurd rfl e
  · have := s5.par h.next (by omega)
    rw [this, if_neg, hpn]
    rintro ⟨_, q⟩; have := ha _ q; omega
  · intro k a T hk hT
    have M := s4 k a T hk hT
    cases a with
    | val v => simp only [MadeAt] at M ⊢; exact ⟨M.1, fun j hj => by have := M.2 j hj; omega⟩
    | item i =>
      have hi := ha i (List.mem_of_getElem? hk)
      have hpi : h0.par i = h.par i := U.par i hi id
      simp only [MadeAt, htree i hi] at M ⊢
      split at M
      · rename_i c; rw [hpi] at c; rw [if_pos c]; exact M
      · rename_i c; rw [hpi] at c; rw [if_neg c]; exact ⟨fun j hj => by have := M.1 j hj; omega, M.2⟩
  · refine ⟨Nat.le_trans U.next s5.next, fun i hi => ?_, fun i hi hip => ?_, fun i hi => ?_, fun i hi => ?_⟩
    · obtain ⟨a1, a2, a3⟩ := s5.data i (lt i hi)
      exact ⟨a1.trans (U.tag i hi), a2.trans (U.value i hi), a3.trans (U.link i hi)⟩
    · exact (s5.kids i (lt i hi) hip).trans (U.kids i hi id)
    · rcases s5.flags i (lt i hi) with e | ⟨e1, e2, j, j1, j2, j3⟩
      · left; exact e.trans (U.flags i hi)
      · right
        have hj := ha j j1
        exact ⟨e1, by rw [e2, U.flags i hi], j, j1, by rw [← U.par j hj id]; exact j2, bl j i hj j3⟩
    · rw [s5.par i (lt i hi), U.par i hi id]

theorem newItem_eq_newFrom (h : Heap) (t : Tag) (v : Val) (a : Arg) (as : List Arg) (f : Flags) : newItem h t v (a :: as) f = newFrom h t v (a :: as) f := by
  have hsame : ((h.alloc { tag := t, value := v, flags := f }).1.modify h.next fun n => { n with fams := some [] }) =
        (h.alloc { tag := t, value := v, flags := f, fams := some [] }).1 := by
    simp only [Heap.modify, Heap.alloc, Heap.mk.injEq, true_and, and_true]
    funext j
    by_cases e : j = h.next
    · subst e; simp
    · simp [e]
  have hid : (h.alloc { tag := t, value := v, flags := f }).2 = h.next := rfl
  have hid' : (h.alloc { tag := t, value := v, flags := f, fams := some [] }).2 = h.next := rfl
  simp only [newItem, newFrom, hid, hid', hsame]

theorem copyAll_spec : ∀ (xs : List Id) {h : Heap}, Core h → (∀ x ∈ xs, x < h.next) → ∃ Ts : List Tree,
    (copyAll h xs).2 = Ts.map Tree.id ∧ Core (copyAll h xs).1 ∧ Unchanged h (copyAll h xs).1 ∧ Ts.map Tree.shape = xs.map (fun x => (h.tree x).shape.copy) ∧
    (Ts.map Tree.id).Nodup ∧ ∀ T ∈ Ts, Rep (copyAll h xs).1 T ∧ (copyAll h xs).1.par T.id = none ∧ ∀ i ∈ T.ids, h.next ≤ i ∧ i < (copyAll h xs).1.next := by
  intro xs
  induction xs with
  | nil => intro h C _; exact ⟨[], rfl, C, Frame.refl _ _ _, rfl, by simp, by simp⟩
  | cons x xs ih =>
    intro h C hx
    have S := copyItem_spec C.wf x
    have C1 : Core (copyItem h x).1 := ⟨S.wf, S.forest C.forest, S.nocov C.nocov⟩
    obtain ⟨T, e, R, s, b⟩ := S.rep
    have hx' : ∀ y ∈ xs, y < (copyItem h x).1.next := fun y hy => Nat.lt_of_lt_of_le (hx y (by simp [hy])) S.unchanged.next
    obtain ⟨Ts, t1, t2, t3, t4, t5, t6⟩ := ih C1 hx'
    simp only [copyAll]
    have hT := S.lt
    have hpar := S.par
    have U := S.unchanged
    have htree : ∀ i, i < h.next → (copyItem h x).1.tree i = h.tree i := by
      intro i hi
      have Ri := tree_rep C.wf C.forest i
      have R0 : Rep (copyItem h x).1 (h.tree i) := Ri.congr fun j hj => by
        have hj := Ri.ids_lt C.wf (by rw [tree_id]; exact hi) j hj
        exact ⟨U.tag j hj, U.value j hj, U.flags j hj, U.link j hj, U.kids j hj id⟩
      have := R0.tree C1.wf
      rwa [tree_id] at this
    generalize (copyItem h x).1 = h1 at *
    generalize (copyItem h x).2 = y at *
    generalize (copyAll h1 xs).1 = h2 at *
    refine ⟨T :: Ts, by simp [t1, e], t2, U.trans t3, ?_, ?_, ?_⟩
    · simp only [List.map_cons, s, copyShape_eq, t4, List.cons.injEq, true_and]
      exact List.map_congr_left fun z hz => by rw [htree z (hx z (by simp [hz]))]
    · simp only [List.map_cons, List.nodup_cons, t5, and_true]
      intro hm
      obtain ⟨T', hT', e'⟩ := List.mem_map.1 hm
      have := (t6 T' hT').2.2 T'.id (by cases T'; simp [Tree.id, Tree.ids_node])
      rw [e', e] at this; omega
    · intro T' hT'
      rcases List.mem_cons.1 hT' with rfl | hT'
      · refine ⟨R.congr fun i hi => ?_, ?_, fun i hi => ⟨(b i hi).1, Nat.lt_of_lt_of_le (b i hi).2 t3.next⟩⟩
        · have hj := (b i hi).2
          exact ⟨t3.tag i hj, t3.value i hj, t3.flags i hj, t3.link i hj, t3.kids i hj id⟩
        · rw [t3.par _ (by rw [e]; exact hT) id, e]; simp [Heap.par, hpar]
      · obtain ⟨r1, r2, r3⟩ := t6 T' hT'
        exact ⟨r1, r2, fun i hi => ⟨Nat.le_trans U.next (r3 i hi).1, (r3 i hi).2⟩⟩

end ITree
