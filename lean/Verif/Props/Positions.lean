import Verif.Proofs.Fresh
import Verif.Props.Removing
/-
C17, C18, C19: positions and paths.
-/
namespace ITree

theorem CEq.unchanged {h h' : Heap} (H : CEq h h') : Unchanged h h' where
  next := by rw [H.next]
  tag i _ := H.tag i
  value i _ := H.value i
  flags i _ := H.flags i
  link i _ := H.link i
  kids i _ _ := H.kids i
  par i _ _ := H.par' i

/-- C17. For every child `c` of `p` in any state reachable by allowed calls – whatever the history left in the caches – `c.idx` is the position
of `c` among the children; reading it changes nothing observable. -/
theorem C17_idx_child {ms : ModelSet} {h : Heap} (R : Reach ms h) {p c : Id} (hc : c ∈ h.kids p) :
    ∃ (n : Nat) (h' : Heap), h.idx c = (h', .ok (some (n : Int))) ∧ (h.kids p)[n]? = some c ∧ (∀ m : Nat, (h.kids p)[m]? = some c → m = n) ∧
      Unchanged h h' ∧ h'.next = h.next ∧ (∀ q, Aligned h' q) := by
  have C := R.core
  obtain ⟨n, h1, h2⟩ := idx_child C.wf hc
  have H := idx_ceq h c
  refine ⟨n, (h.idx c).1, by rw [← h1], h2, fun m hm => ?_, H.unchanged, H.next, fun q => (H.wf C.wf).aligned q⟩
  rw [← nodup_idxOf_unique (C.wf.kids_nodup p) hm, ← nodup_idxOf_unique (C.wf.kids_nodup p) h2]

example : ∃ h', demo.idx 3 = (h', .ok (some 2)) := by
  obtain ⟨n, h', e, e2, e3, _⟩ := C17_idx_child demo_tidy.reach (p := 0) (c := 3) (by decide)
  obtain rfl : 2 = n := e3 2 (by decide)
  exact ⟨h', e⟩

/-- C17, items without parent -/
theorem C17_idx_root (h : Heap) {x : Id} (hx : h.par x = none) : h.idx x = (h, .ok none) := by
  have : (h.node x).parent = none := by simpa [Heap.par] using hx
  simp [Heap.idx, this]

example : demo.idx 0 = (demo, .ok none) := C17_idx_root _ (by decide)

/-- the same state up to the cached positions, which may be arbitrary non-negative numbers -/
structure Recached (h h' : Heap) : Prop where
  next : h'.next = h.next
  node : ∀ i, h'.node i = { h.node i with parent := (h'.node i).parent }
  parent : ∀ i, match (h.node i).parent, (h'.node i).parent with
    | none, none => True
    | some r, some r' => r'.pid = r.pid ∧ r'.frozen = r.frozen ∧ 0 ≤ r'.absC ∧ 0 ≤ r'.famC
    | _, _ => False

theorem Recached.ceq {h h' : Heap} (R : Recached h h') : CEq h h' := by
  refine ⟨R.next, R.node, fun i => ?_⟩
  have := R.parent i
  revert this
  cases (h.node i).parent <;> cases (h'.node i).parent <;> simp [PEq] <;> tauto

/-- C17. Whatever numbers the caches of all items hold: `c.idx` is the true position. -/
theorem C17_idx_any_cache {ms : ModelSet} {h h' : Heap} (R : Reach ms h) (S : Recached h h') {p c : Id} (hc : c ∈ h.kids p) :
    ∃ (n : Nat), (h'.idx c).2 = .ok (some (n : Int)) ∧ (h.kids p)[n]? = some c := by
  have H := S.ceq
  obtain ⟨n, h1, h2⟩ := idx_child (H.wf R.core.wf) (p := p) (x := c) (by rw [H.kids]; exact hc)
  exact ⟨n, h1, by rw [← H.kids]; exact h2⟩

/-- the demo state with absurd caches -/
def demoBad : Heap := demo.setParent 3 (some ⟨0, 1000, 77, false⟩)
theorem demoBad_recached : Recached demo demoBad := by
  refine ⟨rfl, fun i => ?_, fun i => ?_⟩
  · simp only [demoBad, node_setParent]; split <;> rfl
  · by_cases h3 : i = 3
    · subst h3; exact ⟨rfl, rfl, by decide, by decide⟩
    · have h4 : ∀ i, match (demo.node i).parent with | none => True | some r => 0 ≤ r.absC ∧ 0 ≤ r.famC := by
        intro i
        have := demo_tidy.inv
        cases hp : (demo.node i).parent with
        | none => trivial
        | some r =>
          have hz := this.2 i r.pid (by simp [Heap.par, hp])
          obtain ⟨r', g1, _, _, g4, g5⟩ := this.1.wf.kid_parent _ _ hz
          rw [hp] at g1
          obtain rfl : r = r' := by simpa using g1
          exact ⟨g4, g5⟩
      have := h4 i
      simp only [demoBad, node_setParent, h3, if_false]
      cases hp : (demo.node i).parent with
      | none => trivial
      | some r => rw [hp] at this; exact ⟨rfl, rfl, this.1, this.2⟩
example : ∃ n : Nat, (demoBad.idx 3).2 = .ok (some (n : Int)) ∧ (demo.kids 0)[n]? = some 3 :=
  C17_idx_any_cache demo_tidy.reach demoBad_recached (by decide)

/-! ### C18 -/

/-- C18 (partial). For every child `c` of `p` in any reachable state `c.tag_idx` carries the position `m` of `c` among the children with its tag,
`p[(tag, m)]` is `c`, and reading changes nothing observable. Missing: the result may be the bare number instead of the pair (`C18_tag_idx_bare`). -/
theorem C18_tag_idx_partial {ms : ModelSet} {h : Heap} (R : Reach ms h) {p c : Id} (hc : c ∈ h.kids p) :
    ∃ (m : Nat) (h' : Heap), (h.tagIdx c = (h', .ok (.pair (h.tag c) m)) ∨ h.tagIdx c = (h', .ok (.bare m))) ∧
      ((h.kids p).filter fun y => h.tag y = h.tag c)[m]? = some c ∧ getItem h p (.key (h.tag c) (.int m)) = .ok (.one c) ∧
      getItem h' p (.key (h.tag c) (.int m)) = .ok (.one c) ∧ Unchanged h h' := by
  have C := R.core
  obtain ⟨m, h1, h2⟩ := tagIdx_child C.wf hc
  have H := tagIdx_ceq h c
  have hk := C01_family_key_partial R p (h.tag c) m c (by rw [pyGet_nat]; exact h1)
  have hne : h.kids p ≠ [] := by intro e; rw [e] at hc; simp at hc
  refine ⟨m, (h.tagIdx c).1, ?_, h1, hk, ?_, H.unchanged⟩
  · rcases h2 with e | e
    · left; rw [← e]
    · right; rw [← e]
  · rw [← hk]
    simp only [getItem, H.kids, if_neg hne, getItem1, H.boundFams]

/-- C18. Reading `tag_idx` a second time always delivers the pair. -/
theorem C18_tag_idx_second {ms : ModelSet} {h : Heap} (R : Reach ms h) {p c : Id} (hc : c ∈ h.kids p) :
    ∃ m : Nat, (h.tagIdx c).1.tagIdx c = ((h.tagIdx c).1, .ok (.pair (h.tag c) m)) ∧
      ((h.kids p).filter fun y => h.tag y = h.tag c)[m]? = some c := by
  have C := R.core
  have H := tagIdx_ceq h c
  obtain ⟨q, m, hq, hm, e⟩ := tagIdx_of_fresh (H.wf C.wf) (tagIdx_makes_fresh C.wf hc).1
  rw [H.kids] at hq
  obtain rfl : q = p := (C02_parent_child_partial R).2.2 q p c hq hc
  rw [H.famView, H.tag] at hm
  rw [H.tag] at e
  exact ⟨m, e, hm⟩

example : (demo.tagIdx 3).2 = .ok (.pair (.other 1) 1) := by decide

/-- C18, items without parent -/
theorem C18_tag_idx_root (h : Heap) {x : Id} (hx : h.par x = none) : h.tagIdx x = (h, .ok .none) := by
  have : (h.node x).parent = none := by simpa [Heap.par] using hx
  simp [Heap.tagIdx, this]

/-- with a cache that is far off the code delivers the bare number -/
theorem C18_tag_idx_bare_any_cache : (demoBad.tagIdx 3).2 = .ok (.bare 1) := by decide

/-! ### C19 -/

/-- C19. For every item `x` (in any state reachable without `sort` and `clear`) `x.root` has no parent, is reached from `x` by `x.level` steps to the
parent, `x.idx_path` has this length and leads from the root back to `x`; reading the path changes nothing observable. -/
theorem C19_idx_path {ms : ModelSet} {h : Heap} (R : Tidy ms h) (x : Id) : ∃ (is : List Int) (h' : Heap), h.idxPath x = (h', .ok is) ∧
    Unchanged h h' ∧ is.length = h.level x ∧ byIdx h (h.root x) is = .ok x ∧ byIdx h' (h'.root x) is = .ok x ∧
    ancestor h (h.level x) x = some (h.root x) ∧ h.par (h.root x) = none := by
  obtain ⟨C, Z⟩ := R.inv
  obtain ⟨k, r, e1, e2, e3⟩ := climb C Z x
  have er : h.root x = r := rootAux_eq k _ x r e1 e2 e3
  have el : h.level x = k := levelAux_eq k _ x r e1 e2 e3
  obtain ⟨h', is, g1, g2, g3, g4, _⟩ := idxPathAux_spec k h.next h x r [] C Z e1 e2 e3
  have er' : h'.root x = r := rootAux_eq k _ x r (by rw [g2.ancestor]; exact e1) (by rw [g2.par']; exact e2) (by rw [g2.next]; exact e3)
  refine ⟨is, h', by rw [Heap.idxPath, g1]; simp, g2.unchanged, by rw [g3, el], by rw [er]; exact g4, ?_, by rw [el, er]; exact e1, by rw [er]; exact e2⟩
  rw [er', byIdx_congr g2.kids]; exact g4

example : ∃ h', demo.idxPath 4 = (h', .ok [0, 0]) ∧ byIdx demo (demo.root 4) [0, 0] = .ok 4 := ⟨_, rfl, by decide⟩

/-- C19 (partial), tag paths: the elements of `x.tag_idx_path` carry the right positions, with the tags of the items on the way filled in where the
code delivers a bare number, the path leads back to `x`.  Missing: the code may deliver bare numbers. -/
theorem C19_tag_idx_path_partial {ms : ModelSet} {h : Heap} (R : Tidy ms h) (x : Id) : ∃ (is : List TagIdx) (ps : List (Tag × Int)) (h' : Heap),
    h.tagIdxPath x = (h', .ok is) ∧ Unchanged h h' ∧ is.length = h.level x ∧ List.Forall₂ PathElem is ps ∧ byTagIdx h (h.root x) ps = .ok x := by
  obtain ⟨C, Z⟩ := R.inv
  obtain ⟨k, r, e1, e2, e3⟩ := climb C Z x
  have er : h.root x = r := rootAux_eq k _ x r e1 e2 e3
  have el : h.level x = k := levelAux_eq k _ x r e1 e2 e3
  obtain ⟨h', is, ps, g1, g2, g3, g4, g5⟩ := tagIdxPathAux_spec k h.next h x r [] C Z e1 e2 e3
  exact ⟨is, ps, h', by rw [Heap.tagIdxPath, g1]; simp, g2.unchanged, by rw [g3, el], g4, by rw [er]; exact g5⟩

/-- C19. Read a second time, `tag_idx_path` consists of pairs, has the length `x.level` and leads back to `x`. -/
theorem C19_tag_idx_path_second {ms : ModelSet} {h : Heap} (R : Tidy ms h) (x : Id) : ∃ (ps : List (Tag × Int)),
    (h.tagIdxPath x).1.tagIdxPath x = ((h.tagIdxPath x).1, .ok (ps.map fun q => TagIdx.pair q.1 q.2)) ∧ ps.length = h.level x ∧
      byTagIdx h (h.root x) ps = .ok x := by
  obtain ⟨C, Z⟩ := R.inv
  obtain ⟨k, r, e1, e2, e3⟩ := climb C Z x
  have er : h.root x = r := rootAux_eq k _ x r e1 e2 e3
  have el : h.level x = k := levelAux_eq k _ x r e1 e2 e3
  obtain ⟨h', is, ps, g1, g2, g3, g4, g5⟩ := tagIdxPathAux_spec k h.next h x r [] C Z e1 e2 e3
  have Fr := tagIdxPathAux_freshens k h.next h x r [] C Z e1 e2 e3
  have eh : (h.tagIdxPath x).1 = h' := by rw [Heap.tagIdxPath, g1]
  rw [show (tagIdxPathAux h.next h x []).1 = h' by rw [g1]] at Fr
  obtain ⟨qs, q1, q2, q3⟩ := tagIdxPathAux_fresh k h'.next h' x r [] (C.ceq g2) (g2.noZombie Z) (by rw [g2.ancestor]; exact e1)
    (by rw [g2.par']; exact e2) (by rw [g2.next]; exact e3) Fr
  rw [eh]
  exact ⟨qs, by rw [Heap.tagIdxPath, q1]; simp, by rw [q2, el], by rw [er, ← byTagIdx_congr g2.boundFams]; exact q3⟩

example : (demo.tagIdxPath 4).2 = .ok [.pair (.other 1) 0, .pair .noTag 0] ∧ byTagIdx demo 0 [(.other 1, 0), (.noTag, 0)] = .ok 4 := by decide

/-! ### neighbours -/

/-- `pre_item` / `post_item` of a child are its neighbours in the item order, `siblings` are the other children, in order. -/
theorem C19_neighbours {ms : ModelSet} {h : Heap} (R : Reach ms h) {p c : Id} {n : Nat} (hc : (h.kids p)[n]? = some c) :
    (∃ h', h.preItem c = (h', .ok (if n = 0 then none else (h.kids p)[n - 1]?)) ∧ Unchanged h h') ∧
    (∃ h', h.postItem c = (h', .ok ((h.kids p)[n + 1]?)) ∧ Unchanged h h') ∧
    h.siblings c = (h.kids p).eraseIdx n := by
  have C := R.core
  have hmem := List.mem_of_getElem? hc
  have hp := par_child C.wf hmem
  obtain ⟨m, h1, h2⟩ := idx_child C.wf hmem
  have hmn : m = n := by
    rw [← nodup_idxOf_unique (C.wf.kids_nodup p) hc, ← nodup_idxOf_unique (C.wf.kids_nodup p) h2]
  subst hmn
  have H := idx_ceq h c
  have hlt := (List.getElem?_eq_some_iff.1 hc).1
  refine ⟨⟨(h.idx c).1, ?_, H.unchanged⟩, ⟨(h.idx c).1, ?_, H.unchanged⟩, ?_⟩
  · simp only [Heap.preItem, hp, h1, H.kids]
    by_cases h0 : m = 0
    · subst h0; simp
    · have e : (m : Int) - 1 = ((m - 1 : Nat) : Int) := by omega
      have hl : (h.kids p)[m - 1]? = some ((h.kids p)[m - 1]'(by omega)) := List.getElem?_eq_getElem (by omega)
      have : ¬ ((m - 1 : Nat) : Int) < 0 := by omega
      simp only [e, this, if_false, pyGet_nat, hl, h0]
  · simp only [Heap.postItem, hp, h1, H.kids]
    have e : (m : Int) + 1 = ((m + 1 : Nat) : Int) := by omega
    simp only [e, pyGet_nat]
    by_cases h0 : m + 1 < (h.kids p).length
    · have hl : (h.kids p)[m + 1]? = some ((h.kids p)[m + 1]'(by omega)) := List.getElem?_eq_getElem (by omega)
      have : ((m + 1 : Nat) : Int) < ((h.kids p).length : Int) := by omega
      simp only [this, if_true, hl]
    · have : ¬ ((m + 1 : Nat) : Int) < ((h.kids p).length : Int) := by omega
      simp only [this, if_false, List.getElem?_eq_none (by omega : (h.kids p).length ≤ m + 1)]
  · simp only [Heap.siblings, hp]
    have hN := C.wf.kids_nodup p
    obtain ⟨_, e⟩ := List.getElem?_eq_some_iff.1 hc
    have e2 := hN.erase_getElem m hlt
    rw [e] at e2
    rw [← e2, hN.erase_eq_filter]
    apply List.filter_congr
    intro y _
    simp [bne, Bool.beq_eq_decide_eq]

example : demo.siblings 3 = [1, 2, 5] ∧ (demo.preItem 3).2 = .ok (some 2) ∧ (demo.postItem 3).2 = .ok (some 5) := by decide

end ITree
