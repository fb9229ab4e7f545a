import Verif.Proofs.MakeLocal2
/-
Deleting a local item that covers a linked item: the linked item takes its place.
-/
namespace ITree

/-- the heap after the linked item `x` was put back for `y` -/
theorem uncover_eq {h : Heap} (W : WF h) {p x y : Id} {n : Nat} (k : Int) (hn : (h.kids p)[n]? = some y) (m : Int)
    (hm : (h.tagIdx y).2 = .ok (.pair (h.tag y) m)) : ∃ q, CEq (h.setItems p ((h.kids p).eraseIdx n)) q ∧
    ∃ F, (h.node p).fams = some F ∧ FamOK h p F ∧ (h.setItems p ((h.kids p).eraseIdx n)).boundFams p = some F ∧ ∃ j : Nat, m = j ∧ (famView h p (h.tag y))[j]? = some y ∧
    uncover (h.setItems p ((h.kids p).eraseIdx n)) p y x k =
      (((((q.setItems p (pyInsert ((h.kids p).eraseIdx n) k x)).setFams p (F.set (h.tag y) (pySet (famView h p (h.tag y)) m x))).setParent x (some ⟨p, k, m, false⟩)).setParent y none), .ok y) := by
  have hy : y ∈ h.kids p := List.mem_of_getElem? hn
  have hne : h.kids p ≠ [] := by intro e; rw [e] at hy; simp at hy
  obtain ⟨F, hb, hf, hO⟩ := W.bound hne
  have hg := hO.get_of_mem hy
  obtain ⟨j, hj, hp⟩ := tagIdx_child W hy
  have hmj : m = j := by
    rw [hm] at hp
    rcases hp with hp | hp <;> simp at hp
    exact hp
  obtain ⟨r, e1, e2, e3, e4⟩ := tagIdx_eq W hy
  rw [e4] at hm
  have hc : (cachedPos .fam h y r (famView h p (h.tag y))).2 = .ok (m, false) := by
    dsimp only at hm
    split at hm <;> simp_all
  generalize hg1 : h.setItems p ((h.kids p).eraseIdx n) = h1
  have hpar : ∀ i, (h1.node i).parent = (h.node i).parent := by
    intro i; rw [← hg1]; simp only [Heap.setItems, Heap.modify]; split <;> rfl
  have htag : ∀ i, h1.tag i = h.tag i := by
    intro i; rw [← hg1]; simp only [Heap.tag, Heap.setItems, Heap.modify]; split <;> rfl
  have hb1 : h1.boundFams p = some F := by
    rw [← hg1]; simpa [Heap.boundFams, Heap.setItems, Heap.modify] using hb
  have hk1 : h1.kids p = (h.kids p).eraseIdx n := by rw [← hg1]; simp [Heap.kids, Heap.setItems, Heap.modify]
  have hr1 : (h1.node y).parent = some r := by rw [hpar]; exact e1
  have hc1 : (cachedPos .fam h1 y r (famView h p (h.tag y))).2 = .ok (m, false) := cachedPos_pair rfl rfl hc
  have C := cachedPos_ceq (c := .fam) (l := famView h p (h.tag y)) hr1
  have ht : h1.tagIdx y = ((cachedPos .fam h1 y r (famView h p (h.tag y))).1, .ok (.pair (h.tag y) m)) := by
    unfold Heap.tagIdx
    simp only [hr1, e2, hb1, htag, hg]
    generalize cachedPos .fam h1 y r (famView h p (h.tag y)) = z at *
    obtain ⟨z1, z2⟩ := z
    dsimp only at hc1
    subst hc1
    rfl
  refine ⟨_, C, F, hf, hO, hb1, j, hmj, hj, ?_⟩
  unfold uncover
  simp only [ht]
  generalize (cachedPos .fam h1 y r (famView h p (h.tag y))).1 = q at C
  have hbq : (q.setItems p (pyInsert ((h.kids p).eraseIdx n) k x)).boundFams p = some F := by
    have := C.boundFams p
    rw [hb1] at this
    simpa [Heap.boundFams, Heap.setItems, Heap.modify] using this
  simp only [C.kids, hk1, hbq, Option.getD_some, hg]

/-- … and it stands in its place when the index is not negative -/
theorem uncover_swap {h : Heap} (W : WF h) {p x y : Id} {n : Nat} (hn : (h.kids p)[n]? = some y) (m : Int)
    (hm : (h.tagIdx y).2 = .ok (.pair (h.tag y) m)) (ht : h.tag x = h.tag y) (hx : ∀ q, x ∉ h.kids q) :
    (uncover (h.setItems p ((h.kids p).eraseIdx n)) p y x n).2 = .ok y ∧
    SwapRel h (uncover (h.setItems p ((h.kids p).eraseIdx n)) p y x n).1 p y x ∧
    ((uncover (h.setItems p ((h.kids p).eraseIdx n)) p y x n).1.node y).parent = none := by
  have hy : y ∈ h.kids p := List.mem_of_getElem? hn
  have hxy : x ≠ y := by rintro rfl; exact hx p hy
  have hlt := (List.getElem?_eq_some_iff.1 hn).1
  obtain ⟨q, C, F, hf, hO, hb, j, rfl, hj, e⟩ := uncover_eq W (x := x) n hn m hm
  rw [e]
  generalize hg1 : h.setItems p ((h.kids p).eraseIdx n) = h1 at *
  have hpar : ∀ i, (h1.node i).parent = (h.node i).parent := by
    intro i; rw [← hg1]; simp only [Heap.setItems, Heap.modify]; split <;> rfl
  have hne : h.kids p ≠ [] := by intro e; rw [e] at hy; simp at hy
  have hst := W.stale_none p hne
  have hk : pyInsert ((h.kids p).eraseIdx n) n x = (h.kids p).map (swp y x) := by
    unfold pyInsert pyInsPos
    rw [if_neg (by omega)]
    have : min (n : Int).toNat ((h.kids p).eraseIdx n).length = n := by
      rw [List.length_eraseIdx_of_lt hlt]; simp; omega
    rw [this, ← set_eq_insert_erase x hlt, set_eq_swp (W.kids_nodup p) hn]
  have hfm : pySet (famView h p (h.tag y)) j x = (famView h p (h.tag y)).map (swp y x) := by
    rw [pySet_nat (List.getElem?_eq_some_iff.1 hj).1, set_eq_swp (l := famView h p (h.tag y)) ((W.kids_nodup p).filter _) hj]
  have hO' := famOK_swp (tagOf := h.tag) (y := x) (L := h.kids p) hy ht hO.keys hO.get
  rw [hk, hfm]
  have T : ∀ i, q.tag i = h.tag i := fun i => by
    rw [C.tag, ← hg1]; simp only [Heap.tag, Heap.setItems, Heap.modify]; split <;> rfl
  have V : ∀ i, (q.node i).value = (h.node i).value := fun i => by
    rw [C.value, ← hg1]; simp only [Heap.setItems, Heap.modify]; split <;> rfl
  have G : ∀ i, q.flags i = h.flags i := fun i => by
    rw [C.flags, ← hg1]; simp only [Heap.flags, Heap.setItems, Heap.modify]; split <;> rfl
  have L : ∀ i, (q.node i).link = (h.node i).link := fun i => by
    rw [C.link, ← hg1]; simp only [Heap.setItems, Heap.modify]; split <;> rfl
  have S : ∀ i, (q.node i).stale = (h.node i).stale := fun i => by
    rw [C.stale, ← hg1]; simp only [Heap.setItems, Heap.modify]; split <;> rfl
  have Fm : ∀ i, (q.node i).fams = (h.node i).fams := fun i => by
    rw [C.fams, ← hg1]; simp only [Heap.setItems, Heap.modify]; split <;> rfl
  have K : ∀ i, i ≠ p → q.kids i = h.kids i := fun i e => by
    rw [C.kids, ← hg1]; simp [Heap.kids, Heap.setItems, Heap.modify, e]
  have P : ∀ i, PEq (h.node i).parent (q.node i).parent := fun i => by rw [← hpar]; exact C.par i
  have N : q.next = h.next := by rw [C.next, ← hg1]; rfl
  refine ⟨rfl, ?_, by simp [Heap.setParent, Heap.modify]⟩
  constructor
  · exact N
  · intro i; rw [← T i]; simp only [Heap.tag, Heap.setParent, Heap.setFams, Heap.setItems, Heap.modify]; repeat' (first | rfl | split)
  · intro i; rw [← V i]; simp only [Heap.setParent, Heap.setFams, Heap.setItems, Heap.modify]; repeat' (first | rfl | split)
  · intro i; rw [← G i]; simp only [Heap.flags, Heap.setParent, Heap.setFams, Heap.setItems, Heap.modify]; repeat' (first | rfl | split)
  · intro i; rw [← L i]; simp only [Heap.setParent, Heap.setFams, Heap.setItems, Heap.modify]; repeat' (first | rfl | split)
  · simp only [Heap.kids, Heap.setParent, Heap.setFams, Heap.setItems, Heap.modify, if_true]; repeat' (first | rfl | split)
  · intro i e; rw [← K i e]; simp only [Heap.kids, Heap.setParent, Heap.setFams, Heap.setItems, Heap.modify, e, if_false]; repeat' (first | rfl | split)
  · exact ⟨n, j, by omega, by omega, by simp [Heap.setParent, Heap.modify, hxy]⟩
  · intro i e1 e2
    have : (((((q.setItems p ((h.kids p).map (swp y x))).setFams p (F.set (h.tag y) ((famView h p (h.tag y)).map (swp y x)))).setParent x (some ⟨p, n, j, false⟩)).setParent y none).node i).parent = (q.node i).parent := by
      simp only [Heap.setParent, Heap.setFams, Heap.setItems, Heap.modify, e1, e2, if_false]; repeat' (first | rfl | split)
    rw [this]; exact P i
  · rw [← hst, ← S p]
    simp only [Heap.setParent, Heap.setFams, Heap.setItems, Heap.modify, if_true]; repeat' (first | rfl | split)
  · intro i e; rw [← S i]; simp only [Heap.setParent, Heap.setFams, Heap.setItems, Heap.modify, e, if_false]; repeat' (first | rfl | split)
  · refine ⟨F.set (h.tag y) ((famView h p (h.tag y)).map (swp y x)), ?_, hO'.1, ?_⟩
    · simp only [Heap.setParent, Heap.setFams, Heap.setItems, Heap.modify, if_true]; repeat' (first | rfl | split)
    · intro t
      have e : famView ((((q.setItems p ((h.kids p).map (swp y x))).setFams p (F.set (h.tag y) ((famView h p (h.tag y)).map (swp y x)))).setParent x (some ⟨p, n, j, false⟩)).setParent y none) p t
          = ((h.kids p).map (swp y x)).filter fun c => h.tag c = t := by
        unfold famView
        congr 1
        · funext c
          congr 1
          rw [← T c]
          simp only [Heap.tag, Heap.setParent, Heap.setFams, Heap.setItems, Heap.modify]
          repeat' (first | rfl | split)
        · simp only [Heap.kids, Heap.setParent, Heap.setFams, Heap.setItems, Heap.modify, if_true]; repeat' (first | rfl | split)
      rw [e]; exact hO'.2 t
  · intro i e; rw [← Fm i]; simp only [Heap.setParent, Heap.setFams, Heap.setItems, Heap.modify, e, if_false]; repeat' (first | rfl | split)

/-- `del p[k]` where `p[k]` covers the linked item `x` -/
theorem delInt_cover {h : Heap} (W : WF h) {p x y : Id} {k : Int} {n : Nat} {lr : Bool} (hg : guardDel h p = .ok lr) (hk : pyPos (h.kids p).length k = some n)
    (hn : (h.kids p)[n]? = some y) (hf : (lr && isForeign h y) = false) (hc : coverOf h y = some x) :
    delInt h p k = uncover (h.setItems p ((h.kids p).eraseIdx n)) p y x k := by
  have hy : y ∈ h.kids p := List.mem_of_getElem? hn
  have hne : h.kids p ≠ [] := by intro e; rw [e] at hy; simp at hy
  obtain ⟨F, hb, _, hO⟩ := W.bound hne
  have hgm := hO.get_of_mem hy
  unfold delInt
  simp only [hg, hne, if_false, hk, hn, hf, hc, Bool.false_eq_true]
  have hb1 : (h.setItems p ((h.kids p).eraseIdx n)).boundFams p = some F := by
    simpa [Heap.boundFams, Heap.setItems, Heap.modify] using hb
  have ht1 : (h.setItems p ((h.kids p).eraseIdx n)).tag y = h.tag y := by
    simp only [Heap.tag, Heap.setItems, Heap.modify]; split <;> rfl
  rw [if_neg]
  rw [hb1, ht1, Option.getD_some, hgm]
  simp

end ITree
