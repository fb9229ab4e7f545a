import Verif.Proofs.Fresh
/-
Cached positions near the truth: the window search finds the item, no sibling is touched.
-/
namespace ITree

/-- the cached absolute position of `y` differs from a true position in `l = h.kids p` by at most `d` -/
def NearAt (h : Heap) (p : Id) (l : List Id) (d : Int) (y : Id) : Prop :=
  ∃ (r : PRef) (n : Nat), (h.node y).parent = some r ∧ r.pid = p ∧ r.frozen = false ∧ 0 ≤ r.absC ∧ l[n]? = some y ∧ r.absC - n ≤ d ∧ (n : Int) - r.absC ≤ d

theorem windowFind_hit {l : List Id} {x : Id} {s m n : Nat} (hn : l[n]? = some x) (h1 : s ≤ n) (h2 : n < m) : ∃ i, windowFind l x s m = some i := by
  unfold windowFind
  rw [← Option.isSome_iff_exists, List.find?_isSome]
  exact ⟨n, List.mem_range'_1.2 ⟨h1, by omega⟩, by simp [hn]⟩

/-- reading `idx` of an item with a near cache: the answer comes, and at most its own cache changes, to the true position -/
theorem idx_near {h : Heap} {p : Id} {y : Id} (N : NearAt h p (h.kids p) 20 y) :
    ∃ i : Nat, (h.idx y).2 = .ok (some (i : Int)) ∧
      ((h.idx y).1 = h ∨ ∃ (r : PRef), (h.node y).parent = some r ∧ r.frozen = false ∧ r.pid = p ∧ (h.kids p)[i]? = some y ∧
        (h.idx y).1 = h.setParent y (some (r.setC .abs i))) := by
  obtain ⟨r, n, e1, e2, e3, e4, e5, e6, e7⟩ := N
  have hlt := (List.getElem?_eq_some_iff.1 e5).1
  obtain ⟨j, hj⟩ := windowFind_hit (s := (max 0 (r.absC - 20)).toNat) (m := (min ((h.kids p).length : Int) (r.absC + 20 + 1)).toNat) e5 (by omega) (by omega)
  have hji := windowFind_ok hj
  have hfast : ∀ z, r.absC < (h.kids p).length → pyGet (h.kids p) r.absC = some z → z = y → cachedPos .abs h y r (h.kids p) = (h, .ok (r.absC, false)) := by
    intro z h1 h2 h3
    subst h3
    simp [cachedPos, PRef.getC, h1, h2]
  have hslow : (∀ z, r.absC < (h.kids p).length → pyGet (h.kids p) r.absC = some z → z ≠ y) →
      cachedPos .abs h y r (h.kids p) = (h.setParent y (some (r.setC .abs j)), .ok ((j : Int), false)) := by
    intro h1
    unfold cachedPos
    simp only [PRef.getC, hj, e3, Bool.false_eq_true, if_false]
    by_cases hl : r.absC < (h.kids p).length
    · have hg : ∃ z, pyGet (h.kids p) r.absC = some z := by
        simp only [pyGet, e4, if_true]
        exact ⟨_, List.getElem?_eq_getElem (by omega)⟩
      obtain ⟨z, hz⟩ := hg
      simp only [hl, if_true, hz, h1 z hl hz, if_false]
    · simp only [hl, if_false]
  by_cases hc : ∃ z, r.absC < (h.kids p).length ∧ pyGet (h.kids p) r.absC = some z ∧ z = y
  · obtain ⟨z, h1, h2, h3⟩ := hc
    have e := hfast z h1 h2 h3
    refine ⟨r.absC.toNat, ?_, .inl ?_⟩
    · unfold Heap.idx; simp only [e1, e2, e]; simp [e4]
    · unfold Heap.idx; simp only [e1, e2, e]
  · have e := hslow fun z h1 h2 h3 => hc ⟨z, h1, h2, h3⟩
    refine ⟨j, ?_, .inr ⟨r, e1, e3, e2, hji, ?_⟩⟩
    · unfold Heap.idx; simp only [e1, e2, e]
    · unfold Heap.idx; simp only [e1, e2, e]

theorem NearAt.idx {h : Heap} {p : Id} {y z : Id} (N : NearAt h p (h.kids p) 20 y) (M : NearAt h p (h.kids p) 20 z) :
    NearAt (h.idx y).1 p ((h.idx y).1.kids p) 20 z := by
  rw [(idx_ceq h y).kids]
  obtain ⟨i, -, e | ⟨r, e1, e2, e3, e4, e5⟩⟩ := idx_near N
  · rw [e]; exact M
  · rw [e5]
    by_cases hz : z = y
    · subst hz
      refine ⟨r.setC .abs i, i, by simp [node_setParent], e3, e2, ?_, e4, ?_, ?_⟩ <;> simp [PRef.setC]
    · obtain ⟨r', n, a, b⟩ := M
      exact ⟨r', n, by simp [node_setParent, hz, a], b⟩

/-- the interval search succeeds if the caches of all members are near the truth -/
theorem famInsIdxAux_near (fuel : Nat) (p : Id) : ∀ (h : Heap) (fam : List Id) (k : Int) (last : Nat),
    (∀ y ∈ fam, NearAt h p (h.kids p) 20 y) → fam ≠ [] → fam.length ≤ fuel →
    ∃ n, (famInsIdxAux fuel h fam k last).2 = .ok n := by
  induction fuel with
  | zero => intro h fam k last _ h1 h2; simp at h2; exact (h1 h2).elim
  | succ fuel ih =>
    intro h fam k last I hne hf
    unfold famInsIdxAux
    split
    · exact (hne rfl).elim
    · next x =>
      dsimp only
      obtain ⟨i, hi, _⟩ := idx_near (I x (by simp))
      simp only [hi]; exact ⟨_, rfl⟩
    · next hne1 hne2 =>
      dsimp only
      have hlen : 2 ≤ fam.length := by
        match fam, hne1, hne2 with
        | [], h1, _ => exact (h1 rfl).elim
        | [a], _, h2 => exact (h2 a rfl).elim
        | a :: b :: r, _, _ => simp
      obtain ⟨b1, b2⟩ := roundHalf_bounds hlen
      generalize roundHalf fam.length = m at b1 b2
      have hx : fam[m]? = some fam[m] := List.getElem?_eq_getElem b2
      simp only [hx]
      have hN := I _ (List.mem_of_getElem? hx)
      obtain ⟨i, hi, _⟩ := idx_near hN
      simp only [hi]
      split
      · exact ih _ _ _ _ (fun y hy => hN.idx (I y (List.mem_of_mem_drop hy))) (by simp; omega) (by simp; omega)
      · exact ih _ _ _ _ (fun y hy => hN.idx (I y (List.mem_of_mem_take hy))) (by simp; exact ⟨by omega, hne⟩) (by simp; omega)

theorem famInsIdx_near {h : Heap} {p : Id} {fam : List Id} {k : Int} (I : ∀ y ∈ fam, NearAt h p (h.kids p) 20 y) (hne : fam ≠ []) :
    ∃ n, (famInsIdx h fam k).2 = .ok n := famInsIdxAux_near _ p _ _ _ _ I hne (by omega)

/-- putting `x` into the list shifts the others by at most one -/
theorem getElem?_pyInsert {l : List Id} {k : Int} {x y : Id} {n : Nat} (hn : l[n]? = some y) :
    (pyInsert l k x)[n]? = some y ∨ (pyInsert l k x)[n + 1]? = some y := by
  unfold pyInsert
  generalize pyInsPos l.length k = j
  have hlt := (List.getElem?_eq_some_iff.1 hn).1
  rw [List.getElem?_insertIdx, List.getElem?_insertIdx]
  by_cases hj : n < j
  · left; simp [hj, hn]
  · right
    have : ¬ n + 1 < j := by omega
    have h2 : ¬ n + 1 = j := by omega
    simp [this, h2, hn]

theorem NearAt.insert {h : Heap} {p x y : Id} {k : Int} (N : NearAt h p (h.kids p) 19 y) :
    NearAt (h.setItems p (pyInsert (h.kids p) k x)) p ((h.setItems p (pyInsert (h.kids p) k x)).kids p) 20 y := by
  obtain ⟨r, n, e1, e2, e3, e4, e5, e6, e7⟩ := N
  have hk : (h.setItems p (pyInsert (h.kids p) k x)).kids p = pyInsert (h.kids p) k x := by simp [Heap.setItems, Heap.kids, Heap.modify]
  have hp : ((h.setItems p (pyInsert (h.kids p) k x)).node y).parent = (h.node y).parent := by
    simp only [Heap.setItems, Heap.modify]
    by_cases hy : y = p
    · subst hy; simp
    · simp [hy]
  rw [hk]
  rcases getElem?_pyInsert (k := k) (x := x) e5 with g | g
  · exact ⟨r, n, by rw [hp, e1], e2, e3, e4, g, by omega, by omega⟩
  · exact ⟨r, n + 1, by rw [hp, e1], e2, e3, e4, g, by omega, by omega⟩

theorem insertAt_near {h : Heap} (W : WF h) {p x : Id} {k : Int} (hne : h.kids p ≠ [])
    (N : ∀ y ∈ h.kids p, h.tag y = h.tag x → NearAt h p (h.kids p) 19 y) : ∃ h', insertAt h p x k = (h', .ok x) := by
  unfold insertAt
  split
  · exact ⟨_, rfl⟩
  · dsimp only
    obtain ⟨F, hb, hf, hO⟩ := W.bound hne
    have hg := hO.get (h.tag x)
    by_cases hv : famView h p (h.tag x) = []
    · rw [if_pos hv] at hg
      simp only [hb, Option.getD_some, hg]
      exact ⟨_, rfl⟩
    · rw [if_neg hv] at hg
      simp only [hb, Option.getD_some, hg]
      obtain ⟨n, hn⟩ := famInsIdx_near (h := h.setItems p (pyInsert (h.kids p) k x)) (p := p) (fam := famView h p (h.tag x)) (k := k)
        (fun y hy => by
          obtain ⟨a, b⟩ := List.mem_filter.1 hy
          exact (N y a (by simpa using b)).insert) hv
      simp only [hn]
      exact ⟨_, rfl⟩

/-- `[c.idx for c in l]` -/
def readIdx (h : Heap) (l : List Id) : Heap := l.foldl (fun h c => (h.idx c).1) h

theorem idx_makes_fresh {h : Heap} (W : WF h) {p x : Id} (hx : x ∈ h.kids p) : Fresh .abs (h.idx x).1 (h.kids p) x ∧
    ∀ z, Fresh .abs h (h.kids p) z → Fresh .abs (h.idx x).1 (h.kids p) z := by
  obtain ⟨r, h1, h2, h3, h4, h5⟩ := W.kid_parent p x hx
  obtain ⟨a, b⟩ := cachedPos_fresh (c := .abs) (l := h.kids p) h1 h4
  obtain ⟨i, bb, hi⟩ := cachedPos_succ (c := .abs) (h := h) (x := x) (r := r) h4 (W.scannable p) h3 hx
  have e : (h.idx x).1 = (cachedPos .abs h x r (h.kids p)).1 := by unfold Heap.idx; simp only [h1, h2]
  rw [e]
  exact ⟨b _ hi, fun z F => a .abs _ z (fun _ _ => rfl) F⟩

theorem readIdx_ceq : ∀ (l : List Id) (h : Heap), CEq h (readIdx h l) := by
  intro l
  induction l with
  | nil => intro h; exact CEq.refl h
  | cons y ys ih => intro h; exact (idx_ceq h y).trans (ih _)

theorem readIdx_fresh {p : Id} : ∀ (l : List Id) {h : Heap}, WF h → (∀ y ∈ l, y ∈ h.kids p) →
    (∀ z, Fresh .abs h (h.kids p) z → Fresh .abs (readIdx h l) (h.kids p) z) ∧ ∀ y ∈ l, Fresh .abs (readIdx h l) (h.kids p) y := by
  intro l
  induction l with
  | nil => intro h _ _; exact ⟨fun z F => F, by simp⟩
  | cons y ys ih =>
    intro h W hl
    have C := idx_ceq h y
    obtain ⟨a, b⟩ := idx_makes_fresh W (hl y (by simp))
    obtain ⟨c, d⟩ := ih (C.wf W) (fun z hz => by rw [C.kids]; exact hl z (by simp [hz]))
    rw [C.kids] at c d
    refine ⟨fun z F => c z (b z F), fun z hz => ?_⟩
    rcases List.mem_cons.1 hz with rfl | hz
    · exact c _ a
    · exact d z hz

theorem Fresh.nearAt {h : Heap} (W : WF h) {p x : Id} (hx : x ∈ h.kids p) (F : Fresh .abs h (h.kids p) x) : NearAt h p (h.kids p) 0 x := by
  obtain ⟨r, h1, h2, h3, h4, h5⟩ := W.kid_parent p x hx
  obtain ⟨r', e1, e2, e3⟩ := F
  rw [h1] at e1
  obtain rfl : r = r' := by simpa using e1
  exact ⟨r, r.absC.toNat, h1, h2, h3, h4, e3, by omega, by omega⟩

theorem NearAt.mono {h : Heap} {p : Id} {l : List Id} {d d' : Int} {y : Id} (N : NearAt h p l d y) (hd : d ≤ d') : NearAt h p l d' y := by
  obtain ⟨r, n, e1, e2, e3, e4, e5, e6, e7⟩ := N
  exact ⟨r, n, e1, e2, e3, e4, e5, by omega, by omega⟩

/-! ### drift -/

theorem NearAt.idx' {h : Heap} {p : Id} {y z : Id} {d : Int} (hd : 0 ≤ d) (N : NearAt h p (h.kids p) 20 y) (M : NearAt h p (h.kids p) d z) :
    NearAt (h.idx y).1 p ((h.idx y).1.kids p) d z := by
  rw [(idx_ceq h y).kids]
  obtain ⟨i, -, e | ⟨r, e1, e2, e3, e4, e5⟩⟩ := idx_near N
  · rw [e]; exact M
  · rw [e5]
    by_cases hz : z = y
    · subst hz
      refine ⟨r.setC .abs i, i, by simp [node_setParent], e3, e2, ?_, e4, ?_, ?_⟩ <;> simp [PRef.setC, hd]
    · obtain ⟨r', n, a, b⟩ := M
      exact ⟨r', n, by simp [node_setParent, hz, a], b⟩

theorem famInsIdxAux_keeps (fuel : Nat) (p : Id) : ∀ (h : Heap) (fam : List Id) (k : Int) (last : Nat) (d : Int), 0 ≤ d →
    (∀ y ∈ fam, NearAt h p (h.kids p) 20 y) → ∀ z, NearAt h p (h.kids p) d z →
    NearAt (famInsIdxAux fuel h fam k last).1 p ((famInsIdxAux fuel h fam k last).1.kids p) d z := by
  induction fuel with
  | zero => intro h fam k last d _ _ z M; exact M
  | succ fuel ih =>
    intro h fam k last d hd I z M
    unfold famInsIdxAux
    split
    · exact M
    · next x =>
      dsimp only
      have := (I x (by simp)).idx' hd M
      split <;> exact this
    · dsimp only
      split
      · exact M
      · next x hx =>
        have hN := I x (List.mem_of_getElem? hx)
        have hM := hN.idx' hd M
        split
        · split
          · exact ih _ _ _ _ d hd (fun y hy => hN.idx (I y (List.mem_of_mem_drop hy))) z hM
          · exact ih _ _ _ _ d hd (fun y hy => hN.idx (I y (List.mem_of_mem_take hy))) z hM
        · exact hM
        · exact hM

/-- a change of anything but parents and the children of `p` -/
theorem NearAt.congr {h h' : Heap} {p z : Id} {l : List Id} {d : Int} (M : NearAt h p l d z) (e : (h'.node z).parent = (h.node z).parent) : NearAt h' p l d z := by
  obtain ⟨r, n, a, b⟩ := M
  exact ⟨r, n, by rw [e, a], b⟩

theorem NearAt.insert' {h : Heap} {p x y : Id} {k : Int} {d : Int} (N : NearAt h p (h.kids p) d y) :
    NearAt h p (pyInsert (h.kids p) k x) (d + 1) y := by
  obtain ⟨r, n, e1, e2, e3, e4, e5, e6, e7⟩ := N
  rcases getElem?_pyInsert (k := k) (x := x) e5 with g | g
  · exact ⟨r, n, e1, e2, e3, e4, g, by omega, by omega⟩
  · exact ⟨r, n + 1, e1, e2, e3, e4, g, by omega, by omega⟩

theorem pyInsert_at {l : List Id} {k : Int} {x : Id} (h0 : 0 ≤ k) (h1 : k ≤ l.length) : (pyInsert l k x)[k.toNat]? = some x := by
  obtain ⟨n, rfl⟩ := Int.eq_ofNat_of_zero_le h0
  have hn : n ≤ l.length := by omega
  rw [pyInsert_nat _ _ _ hn]
  simp [List.getElem?_insertIdx, hn]

theorem kids_setItems_self (h : Heap) (p : Id) (l : List Id) : (h.setItems p l).kids p = l := by simp [Heap.setItems, Heap.kids, Heap.modify]

/-- an insertion inside the list succeeds if no cache is off by more than 19, and lets the caches drift by at most one -/
theorem insertAt_drift {h : Heap} (W : WF h) {p x : Id} {k : Int} {d : Int} (hne : h.kids p ≠ []) (hx : x ∉ h.kids p) (h0 : 0 ≤ k) (h1 : k ≤ (h.kids p).length)
    (hd0 : 0 ≤ d) (hd : d ≤ 19) (N : ∀ y ∈ h.kids p, NearAt h p (h.kids p) d y) :
    ∃ h', insertAt h p x k = (h', .ok x) ∧ ∀ y ∈ h'.kids p, NearAt h' p (h'.kids p) (d + 1) y := by
  have hmem : ∀ y ∈ pyInsert (h.kids p) k x, y = x ∨ y ∈ h.kids p := fun y hy => by
    unfold pyInsert at hy
    by_cases hl : pyInsPos (h.kids p).length k ≤ (h.kids p).length
    · exact (List.mem_insertIdx hl).1 hy
    · rw [List.insertIdx_of_length_lt (by omega)] at hy; exact .inr hy
  -- the last step, common to all branches
  have fin : ∀ (g : Heap) (F : Fams) (j : Int), (∀ i, g.kids p = pyInsert (h.kids p) k x → i ∈ h.kids p → NearAt g p (pyInsert (h.kids p) k x) (d + 1) i) →
      g.kids p = pyInsert (h.kids p) k x →
      ∀ y ∈ ((g.setFams p F).setParent x (some ⟨p, k, j, false⟩)).kids p,
        NearAt ((g.setFams p F).setParent x (some ⟨p, k, j, false⟩)) p (((g.setFams p F).setParent x (some ⟨p, k, j, false⟩)).kids p) (d + 1) y := by
    intro g F j hg hk y hy
    rw [kids_setParent, kids_setFams, hk] at hy ⊢
    by_cases hyx : y = x
    · subst hyx
      refine ⟨⟨p, k, j, false⟩, k.toNat, by simp [node_setParent], rfl, rfl, h0, pyInsert_at h0 h1, ?_, ?_⟩ <;> simp only <;> omega
    · rcases hmem y hy with e | e
      · exact absurd e hyx
      · refine (hg y hk e).congr ?_
        simp only [node_setParent, hyx, if_false, parent_setFams]
  unfold insertAt
  by_cases hk0 : k = 0
  · subst hk0
    simp only [if_true]
    refine ⟨_, rfl, ?_⟩
    unfold appendItemLeft
    have hc : pyInsert (h.kids p) 0 x = x :: h.kids p := by
      unfold pyInsert pyInsPos; simp
    refine fin (h.setItems p (x :: h.kids p)) _ 0 ?_ ?_
    · intro i _ hi
      exact ((N i hi).insert' (k := 0) (x := x)).congr (parent_setItems _ _ _ _)
    · rw [kids_setItems_self, hc]
  · simp only [hk0, if_false]
    obtain ⟨F, hb, hf, hO⟩ := W.bound hne
    have hg := hO.get (h.tag x)
    by_cases hv : famView h p (h.tag x) = []
    · rw [if_pos hv] at hg
      simp only [hb, Option.getD_some, hg]
      exact ⟨_, rfl, fin (h.setItems p (pyInsert (h.kids p) k x)) _ 0 (fun i _ hi => ((N i hi).insert' (k := k) (x := x)).congr (parent_setItems _ _ _ _)) (kids_setItems_self _ _ _)⟩
    · rw [if_neg hv] at hg
      simp only [hb, Option.getD_some, hg]
      have I : ∀ y ∈ famView h p (h.tag x), NearAt (h.setItems p (pyInsert (h.kids p) k x)) p ((h.setItems p (pyInsert (h.kids p) k x)).kids p) 20 y := fun y hy =>
        ((N y (List.mem_filter.1 hy).1).mono hd).insert
      obtain ⟨n, hn⟩ := famInsIdx_near (k := k) I hv
      simp only [hn]
      have hkk : (famInsIdx (h.setItems p (pyInsert (h.kids p) k x)) (famView h p (h.tag x)) k).1.kids p = pyInsert (h.kids p) k x := by
        rw [(famInsIdx_ceq _ _ _).kids, kids_setItems_self]
      refine ⟨_, rfl, fin _ _ _ (fun i _ hi => ?_) hkk⟩
      have := famInsIdxAux_keeps ((famView h p (h.tag x)).length + 1) p _ (famView h p (h.tag x)) k 0 (d + 1) (by omega) I i
        (by rw [kids_setItems_self]; exact ((N i hi).insert' (k := k) (x := x)).congr (parent_setItems _ _ _ _))
      rw [show famInsIdxAux ((famView h p (h.tag x)).length + 1) (h.setItems p (pyInsert (h.kids p) k x)) (famView h p (h.tag x)) k 0 =
        famInsIdx (h.setItems p (pyInsert (h.kids p) k x)) (famView h p (h.tag x)) k from rfl, hkk] at this
      exact this

end ITree
