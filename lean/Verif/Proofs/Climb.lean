import Verif.Proofs.Steps3
import Verif.Proofs.Rep
import Verif.Model.Getter
/-
Ascending to the root: the parent chain of every item ends after fewer steps than there are objects.
-/
namespace ITree

theorem Core.ceq {h h' : Heap} (C : Core h) (H : CEq h h') : Core h' := ⟨H.wf C.wf, H.forest C.forest, H.noCover C.nocov⟩

theorem kids_lt_next {h : Heap} (W : WF h) {p c : Id} (hc : c ∈ h.kids p) : p < h.next := by
  by_cases hp : p < h.next
  · exact hp
  · have := (W.fresh p (by omega)).1
    rw [this] at hc; simp at hc

theorem depth_child {h : Heap} (C : Core h) {p c : Id} (hc : c ∈ h.kids p) : (h.tree c).depth < (h.tree p).depth := by
  have Rp := tree_rep C.wf C.forest p
  have hk : c ∈ (h.tree p).kids.map Tree.id := by
    rw [← Rp.kids, tree_id]; exact hc
  obtain ⟨k, hk, e⟩ := List.mem_map.1 hk
  have hkt : h.tree c = k := by rw [← e]; exact (Rp.kid hk).tree C.wf
  rw [hkt]
  cases ht : h.tree p with
  | node i t v f l ks =>
    rw [ht] at hk
    simp only [Tree.kids] at hk
    simp only [Tree.depth]
    have := depth_le_depthL hk
    omega

theorem climb_aux {h : Heap} (C : Core h) (Z : NoZombie h) : ∀ (m : Nat) (x : Id), x < h.next → h.next ≤ (h.tree x).depth + m →
    ∃ k r, ancestor h k x = some r ∧ h.par r = none ∧ k ≤ m := by
  intro m
  induction m with
  | zero =>
    intro x hx hm
    cases hp : h.par x with
    | none => exact ⟨0, x, rfl, hp, Nat.le_refl _⟩
    | some p =>
      have hc := Z x p hp
      have h1 := depth_child C hc
      have h2 := (tree_rep C.wf C.forest p).depth_le C.wf (by rw [tree_id]; exact kids_lt_next C.wf hc)
      omega
  | succ m ih =>
    intro x hx hm
    cases hp : h.par x with
    | none => exact ⟨0, x, rfl, hp, Nat.zero_le _⟩
    | some p =>
      have hc := Z x p hp
      have h1 := depth_child C hc
      obtain ⟨k, r, e1, e2, e3⟩ := ih p (kids_lt_next C.wf hc) (by omega)
      exact ⟨k + 1, r, by simp [ancestor, hp, e1], e2, by omega⟩

/-- every ascent ends at an item without parent, after at most as many steps as there are objects -/
theorem climb {h : Heap} (C : Core h) (Z : NoZombie h) (x : Id) : ∃ k r, ancestor h k x = some r ∧ h.par r = none ∧ k ≤ h.next := by
  by_cases hx : x < h.next
  · exact climb_aux C Z h.next x hx (by omega)
  · refine ⟨0, x, rfl, ?_, Nat.zero_le _⟩
    simp [Heap.par, (C.wf.fresh x (by omega)).2]

theorem rootAux_eq {h : Heap} : ∀ (k n : Nat) (x r : Id), ancestor h k x = some r → h.par r = none → k ≤ n → rootAux n h x = r := by
  intro k
  induction k with
  | zero =>
    intro n x r e hr _
    simp [ancestor] at e; subst e
    cases n <;> simp [rootAux, hr]
  | succ k ih =>
    intro n x r e hr hn
    cases n with
    | zero => omega
    | succ n =>
      cases hp : h.par x with
      | none => simp [ancestor, hp] at e
      | some p =>
        simp only [rootAux, hp]
        exact ih n p r (by simpa [ancestor, hp] using e) hr (by omega)

theorem levelAux_eq {h : Heap} : ∀ (k n : Nat) (x r : Id), ancestor h k x = some r → h.par r = none → k ≤ n → levelAux n h x = k := by
  intro k
  induction k with
  | zero =>
    intro n x r e hr _
    simp [ancestor] at e; subst e
    cases n <;> simp [levelAux, hr]
  | succ k ih =>
    intro n x r e hr hn
    cases n with
    | zero => omega
    | succ n =>
      cases hp : h.par x with
      | none => simp [ancestor, hp] at e
      | some p =>
        simp only [levelAux, hp]
        rw [ih n p r (by simpa [ancestor, hp] using e) hr (by omega)]; omega

theorem CEq.ancestor {h h' : Heap} (H : CEq h h') (k : Nat) : ∀ x, ITree.ancestor h' k x = ITree.ancestor h k x := by
  induction k with
  | zero => intro x; rfl
  | succ k ih =>
    intro x
    simp only [ITree.ancestor, H.par']
    cases h.par x with
    | none => rfl
    | some p => exact ih p

theorem byIdx_append {h : Heap} : ∀ (a b : List Int) (p : Id),
    byIdx h p (a ++ b) = match byIdx h p a with | .ok q => byIdx h q b | .error e => .error e := by
  intro a
  induction a with
  | nil => intro b p; rfl
  | cons i a ih =>
    intro b p
    simp only [List.cons_append, byIdx]
    cases pyGet (h.kids p) i with
    | none => rfl
    | some c => exact ih b c

theorem byIdx_congr {h h' : Heap} (hk : ∀ i, h'.kids i = h.kids i) : ∀ (a : List Int) (p : Id), byIdx h' p a = byIdx h p a := by
  intro a
  induction a with
  | nil => intro p; rfl
  | cons i a ih =>
    intro p
    simp only [byIdx, hk]
    cases pyGet (h.kids p) i with
    | none => rfl
    | some c => exact ih c

theorem pyGet_nat {α} {l : List α} {n : Nat} : pyGet l (n : Int) = l[n]? := by simp [pyGet]

theorem idxPathAux_spec : ∀ (k n : Nat) (h : Heap) (x r : Id) (acc : List Int), Core h → NoZombie h → ancestor h k x = some r → h.par r = none →
    k ≤ n → ∃ h' is, idxPathAux n h x acc = (h', .ok (is ++ acc)) ∧ CEq h h' ∧ is.length = k ∧ byIdx h r is = .ok x ∧ ∀ i ∈ is, 0 ≤ i := by
  intro k
  induction k with
  | zero =>
    intro n h x r acc C Z e hr _
    simp [ancestor] at e; subst e
    refine ⟨h, [], ?_, CEq.refl h, rfl, rfl, by simp⟩
    cases n <;> simp [idxPathAux, hr]
  | succ k ih =>
    intro n h x r acc C Z e hr hn
    cases n with
    | zero => omega
    | succ n =>
      cases hp : h.par x with
      | none => simp [ancestor, hp] at e
      | some p =>
        have hx := Z x p hp
        obtain ⟨m, hm1, hm2⟩ := idx_child C.wf hx
        have H := idx_ceq h x
        obtain ⟨h', is, e1, e2, e3, e4, e5⟩ := ih n (h.idx x).1 p r ((m : Int) :: acc) (C.ceq H) (H.noZombie Z)
          (by rw [H.ancestor]; simpa [ancestor, hp] using e) (by rw [H.par']; exact hr) (by omega)
        refine ⟨h', is ++ [(m : Int)], ?_, H.trans e2, by simp [e3], ?_, ?_⟩
        · simp only [idxPathAux, hp, hm1]
          rw [e1]; simp
        · rw [byIdx_append]
          rw [byIdx_congr H.kids] at e4
          simp only [e4, byIdx, pyGet_nat, hm2]
        · intro i hi
          rcases List.mem_append.1 hi with hi | hi
          · exact e5 i hi
          · simp at hi; omega

theorem byTagIdx_append {h : Heap} : ∀ (a b : List (Tag × Int)) (p : Id),
    byTagIdx h p (a ++ b) = match byTagIdx h p a with | .ok q => byTagIdx h q b | .error e => .error e := by
  intro a
  induction a with
  | nil => intro b p; rfl
  | cons i a ih =>
    intro b p
    simp only [List.cons_append, byTagIdx]
    cases ((h.boundFams p).getD []).get? i.1 with
    | none => rfl
    | some fam =>
      cases hg : pyGet fam i.2 with
      | none => simp only [hg]
      | some c => simp only [hg]; exact ih b c

theorem byTagIdx_congr {h h' : Heap} (hk : ∀ i, h'.boundFams i = h.boundFams i) : ∀ (a : List (Tag × Int)) (p : Id),
    byTagIdx h' p a = byTagIdx h p a := by
  intro a
  induction a with
  | nil => intro p; rfl
  | cons i a ih =>
    intro p
    simp only [byTagIdx, hk]
    cases ((h.boundFams p).getD []).get? i.1 with
    | none => rfl
    | some fam =>
      cases hg : pyGet fam i.2 with
      | none => simp only [hg]
      | some c => simp only [hg]; exact ih c

/-- the path element as the code should have delivered it -/
inductive PathElem : TagIdx → Tag × Int → Prop
  | pair {t i} : PathElem (.pair t i) (t, i)
  | bare {t i} : PathElem (.bare i) (t, i)

theorem tagIdxPathAux_spec : ∀ (k n : Nat) (h : Heap) (x r : Id) (acc : List TagIdx), Core h → NoZombie h → ancestor h k x = some r →
    h.par r = none → k ≤ n → ∃ h' is ps, tagIdxPathAux n h x acc = (h', .ok (is ++ acc)) ∧ CEq h h' ∧ is.length = k ∧
      List.Forall₂ PathElem is ps ∧ byTagIdx h r ps = .ok x := by
  intro k
  induction k with
  | zero =>
    intro n h x r acc C Z e hr _
    simp [ancestor] at e; subst e
    refine ⟨h, [], [], ?_, CEq.refl h, rfl, .nil, rfl⟩
    cases n <;> simp [tagIdxPathAux, hr]
  | succ k ih =>
    intro n h x r acc C Z e hr hn
    cases n with
    | zero => omega
    | succ n =>
      cases hp : h.par x with
      | none => simp [ancestor, hp] at e
      | some p =>
        have hx := Z x p hp
        obtain ⟨m, hm2, hm1⟩ := tagIdx_child C.wf hx
        have H := tagIdx_ceq h x
        have hne : h.kids p ≠ [] := by intro e; rw [e] at hx; simp at hx
        obtain ⟨F, hb, hf, hO⟩ := C.wf.bound hne
        have hg := hO.get_of_mem hx
        have hel : ∃ ti, (h.tagIdx x).2 = .ok ti ∧ PathElem ti (h.tag x, (m : Int)) := by
          rcases hm1 with e | e
          · exact ⟨_, e, .pair⟩
          · exact ⟨_, e, .bare⟩
        obtain ⟨ti, e6, e7⟩ := hel
        obtain ⟨h', is, ps, e1, e2, e3, e4, e5⟩ := ih n (h.tagIdx x).1 p r (ti :: acc) (C.ceq H) (H.noZombie Z)
          (by rw [H.ancestor]; simpa [ancestor, hp] using e) (by rw [H.par']; exact hr) (by omega)
        refine ⟨h', is ++ [ti], ps ++ [(h.tag x, (m : Int))], ?_, H.trans e2, by simp [e3], ?_, ?_⟩
        · simp only [tagIdxPathAux, hp, e6]
          rw [e1]; simp
        · exact List.rel_append e4 (.cons e7 .nil)
        · rw [byTagIdx_append]
          rw [byTagIdx_congr H.boundFams] at e5
          simp only [e5, byTagIdx, hb, Option.getD_some, hg, pyGet_nat, hm2]

end ITree
