import Verif.Proofs.Uncover
import Verif.Proofs.LoadLinks6
import Verif.Props.Links
import Verif.Spec.LoadLinks
/-
C73: making a linked item local, and taking it back.
-/
namespace ITree

/-- C73. `x.make_local()` raises SyntaxError and changes nothing if `x` has no parent, is not linked, or its parent is not a link root. -/
theorem C73_refused (h : Heap) (x : Id) (sub : Bool)
    (hn : h.par x = none ∨ (h.flags x).has Flags.linked = false ∨ ∃ p, h.par x = some p ∧ (h.flags p).has Flags.linkRoot = false) : makeLocal h x sub = (h, .error .syntaxErr) := by
  unfold makeLocal
  cases hr : (h.node x).parent with
  | none => rfl
  | some r =>
    rcases hn with hn | hn | ⟨p, h1, h2⟩
    · simp [Heap.par, hr] at hn
    · simp [hn]
    · simp [Heap.par, hr] at h1
      simp only [Heap.isLinkRoot, h1, h2]
      split <;> rfl

/-- C73. `y = x.make_local(copy_subtree)` on a linked child `x` of a link root `p`: a new item `y` with the tag and the value of `x`, which is not linked and covers `x`, stands in the place of `x`
among the children of `p`; nothing else changes and everything stays consistent.  Below `y` are the items below `x` in deep order with their tags and values, marked as linked – with the same structure
if in the source only last siblings have children – or nothing if the subtree is not copied.
(Missing: `x.tag_idx` must deliver a pair, C18; the structure of the subtree in general, `C73_structure_wrong`.) -/
theorem C73_make_local_partial (h : Heap) (W : WF h) (p x : Id) (hx : x ∈ h.kids p) (hl : (h.flags x).has Flags.linked = true) (hp : (h.flags p).has Flags.linkRoot = true)
    (m : Int) (hm : (h.tagIdx x).2 = .ok (.pair (h.tag x) m)) (sub : Bool) : ∃ h' y, makeLocal h x sub = (h', .ok y) ∧ h.next ≤ y ∧ y < h'.next ∧
    WF h' ∧ (Forest h → Forest h') ∧ Frame h h' (· = p) (fun _ => False) ∧
    (∃ n : Nat, (h.kids p)[n]? = some x ∧ h'.kids p = (h.kids p).set n y) ∧ h'.par y = some p ∧
    h'.tag y = h.tag x ∧ (h'.node y).value = (h.node x).value ∧ h'.flags y = h.flags x &&& ~~~ Flags.linked ∧ coverOf h' y = some x ∧
    ∃ Ts : List Tree, h'.kids y = Ts.map Tree.id ∧ (∀ T ∈ Ts, Rep h' T) ∧ (∀ i ∈ Tree.idsL Ts, h.next ≤ i) ∧
      (sub = false → Ts = []) ∧ (sub = true → (Tree.preL Ts).map Tree.facts = (Tree.preL (h.tree x).kids).map Tree.linkedData) ∧
      (sub = true → (h.tree x).LastOnly → Ts.map Tree.shape = (Tree.linkedCopyL (h.tree x).kids).map Tree.copyShape) := by
  obtain ⟨o, S⟩ := (makeLocal_spec W hx hl hp sub).1 m hm
  obtain ⟨Ts, t1, t2, t3, t4⟩ := S.rep
  refine ⟨_, h.next, Prod.ext rfl o, Nat.le_refl _, S.lt, S.wf, S.forest, S.frame, S.kids, S.par, S.tag, S.value, S.flags, ?_, Ts, t1, t2, fun i hi => Nat.le_of_lt (t4 i hi).1, ?_, ?_, ?_⟩
  · simp only [coverOf, S.link]
  · rintro rfl
    rw [localKids_off] at t3
    simpa using t3
  · rintro rfl
    rw [shapes_facts t3, localKids_eq, chainUp_facts]
  · rintro rfl hL
    rw [t3, localKids_eq]
    rw [lastOnly_eq] at hL
    rw [(chainUp_iff _ _ (Nat.le_refl _)).2 hL]

/-- C73 (defect). If `x.tag_idx` delivers a bare number – its cached position is far from the truth – `make_local` raises TypeError; the tree is not changed. -/
theorem C73_far_cache_wrong (h : Heap) (W : WF h) (p x : Id) (hx : x ∈ h.kids p) (hl : (h.flags x).has Flags.linked = true) (hp : (h.flags p).has Flags.linkRoot = true)
    (m : Int) (hm : (h.tagIdx x).2 = .ok (.bare m)) (sub : Bool) : ∃ h', makeLocal h x sub = (h', .error .type) ∧ Unchanged h h' := by
  obtain ⟨o, U, _⟩ := (makeLocal_spec W hx hl hp sub).2 m hm
  exact ⟨_, Prod.ext rfl o, U⟩

/-- the state after `make_local`, as needed for the deletion -/
theorem after_local {h : Heap} (W : WF h) {p x : Id} (hx : x ∈ h.kids p) (hl : (h.flags x).has Flags.linked = true) (hp : (h.flags p).has Flags.linkRoot = true)
    (hph : (h.flags x).has Flags.placeholder = false) {m : Int} (hm : (h.tagIdx x).2 = .ok (.pair (h.tag x) m)) (sub : Bool) :
    ∃ h' y n m', makeLocal h x sub = (h', .ok y) ∧ LocalSpec h h' p x y (localKids (h.tree x) sub) ∧ (h.kids p)[n]? = some x ∧ h'.kids p = (h.kids p).set n y ∧ (h'.kids p)[n]? = some y ∧
      (h'.tagIdx y).2 = .ok (.pair (h'.tag y) m') ∧ (∀ q, x ∉ h'.kids q) ∧ h'.tag x = h'.tag y ∧ (∃ lr, guardDel h' p = .ok lr ∧ (lr && isForeign h' y) = false) ∧ coverOf h' y = some x := by
  obtain ⟨o, S⟩ := (makeLocal_spec W hx hl hp sub).1 m hm
  have hxl := W.kids_lt p x hx
  have hpl := W.lt_of_kids (p := p) (by intro e; rw [e] at hx; simp at hx)
  obtain ⟨n, n1, n2⟩ := S.kids
  have hn' : ((makeLocal h x sub).1.kids p)[n]? = some h.next := by
    rw [n2, List.getElem?_set_self]; exact (List.getElem?_eq_some_iff.1 n1).1
  obtain ⟨q, m', hq, hv, ht⟩ := tagIdx_of_fresh S.wf S.fresh
  refine ⟨_, h.next, n, m', Prod.ext rfl o, S, n1, n2, hn', by rw [ht], ?_, ?_, ?_, ?_⟩
  · intro q hq
    have h1 := par_child S.wf hq
    rw [S.frame.par x hxl (fun h => h), par_child W hx] at h1
    obtain rfl : p = q := by simpa using h1
    rw [n2, set_eq_swp (W.kids_nodup p) n1, mem_swp hx] at hq
    rcases hq with h | h
    · omega
    · exact h.2 rfl
  · rw [S.tag, S.frame.tag x hxl]
  · have hf : (makeLocal h x sub).1.flags p = h.flags p := S.frame.flags p hpl
    have hpr : (makeLocal h x sub).1.isProtected p = true := by
      simp only [Heap.isProtected, hf]
      revert hp; generalize h.flags p = f; revert f; decide
    refine ⟨(makeLocal h x sub).1.linkLoaded p, by simp only [guardDel, hpr, Heap.isLinkRoot, hf, hp, if_true, Bool.not_true, Bool.false_eq_true, if_false], ?_⟩
    rw [Bool.and_eq_false_iff]; right
    simp only [isForeign, S.flags]
    revert hph; generalize h.flags x = f; revert f; decide
  · simp only [coverOf, S.link]

/-- C73. Deleting the local item by its index brings the linked item back: the children of the link root are what they were before `make_local`, the local item has no parent, and every item that was there
before has the children and the parent it had. -/
theorem C73_undo (h : Heap) (W : WF h) (p x : Id) (hx : x ∈ h.kids p) (hl : (h.flags x).has Flags.linked = true) (hp : (h.flags p).has Flags.linkRoot = true)
    (hph : (h.flags x).has Flags.placeholder = false) (m : Int) (hm : (h.tagIdx x).2 = .ok (.pair (h.tag x) m)) (sub : Bool) :
    ∃ (h1 : Heap) (y : Id) (n : Nat) (h2 : Heap), makeLocal h x sub = (h1, .ok y) ∧ (h.kids p)[n]? = some x ∧ delInt h1 p n = (h2, .ok y) ∧
      WF h2 ∧ (Forest h → Forest h2) ∧ h2.kids p = h.kids p ∧ h2.par x = some p ∧ h2.par y = none ∧ Unchanged h h2 := by
  obtain ⟨h1, y, n, m', e1, S, n1, n2, n3, e2, e3, e4, ⟨lr, g1, g2⟩, e5⟩ := after_local W hx hl hp hph hm sub
  have hlt := (List.getElem?_eq_some_iff.1 n3).1
  have hxl := W.kids_lt p x hx
  have hpl := W.lt_of_kids (p := p) (by intro e; rw [e] at hx; simp at hx)
  obtain ⟨u1, u2, u3⟩ := uncover_swap S.wf n3 m' e2 e4 e3
  have hd := delInt_cover S.wf (k := n) g1 (by simp [pyPos, hlt]) n3 g2 e5
  have hy1 : y ∈ h1.kids p := List.mem_of_getElem? n3
  have hle := S.frame.next
  have hyn := S.new
  have hkx : (uncover (h1.setItems p ((h1.kids p).eraseIdx n)) p y x n).1.kids p = h.kids p := by
    rw [u2.kids_p, ← set_eq_swp (S.wf.kids_nodup p) n3, n2, List.set_set]
    obtain ⟨a, b⟩ := List.getElem?_eq_some_iff.1 n1
    rw [← b]; exact List.set_getElem_self a
  have hpx : (uncover (h1.setItems p ((h1.kids p).eraseIdx n)) p y x n).1.par x = some p := by
    obtain ⟨a, b, _, _, h5⟩ := u2.par_y
    simp only [Heap.par, h5]; rfl
  refine ⟨h1, y, n, _, e1, n1, hd.trans (Prod.ext rfl u1), u2.wf S.wf hy1 (by omega) e3, fun F => ?_, hkx, hpx, by simp only [Heap.par, u3]; rfl, ?_⟩
  · have F1 := S.forest F
    refine u2.forest F1 hy1 ?_
    intro hb
    -- `p` below `x` already in `h`
    have : ∀ z, Below h1 x z → Below h x z ∧ z < h.next := by
      intro z hz
      induction hz with
      | refl => exact ⟨.refl, hxl⟩
      | @step q c hb hc ih =>
        by_cases hqp : q = p
        · exfalso
          subst hqp
          exact F.irrefl hx ih.1
        · rw [S.frame.kids q ih.2 hqp] at hc
          exact ⟨.step ih.1 hc, W.kids_lt q c hc⟩
    exact F.irrefl hx (this p hb).1
  · exact
    { next := by rw [u2.next]; omega
      tag := fun i hi => by rw [u2.tag]; exact S.frame.tag i hi
      value := fun i hi => by rw [u2.value]; exact S.frame.value i hi
      flags := fun i hi => by rw [u2.flags]; exact S.frame.flags i hi
      link := fun i hi => by rw [u2.link]; exact S.frame.link i hi
      kids := fun i hi _ => by
        by_cases e : i = p
        · rw [e]; exact hkx
        · rw [u2.kids_o i e]; exact S.frame.kids i hi e
      par := fun i hi _ => by
        by_cases e : i = x
        · rw [e, hpx, par_child W hx]
        · have := (u2.par_o i (by omega) e).par
          exact this.trans (S.frame.par i hi (fun h => h)) }

/-- C73 (defect). Deleting the same local item by a negative index brings the linked item back one position too far left, unless it is the first child. -/
theorem C73_negative_wrong (h : Heap) (W : WF h) (p x : Id) (hx : x ∈ h.kids p) (hl : (h.flags x).has Flags.linked = true) (hp : (h.flags p).has Flags.linkRoot = true)
    (hph : (h.flags x).has Flags.placeholder = false) (m : Int) (hm : (h.tagIdx x).2 = .ok (.pair (h.tag x) m)) (sub : Bool) (n : Nat) (hn : (h.kids p)[n + 1]? = some x) :
    ∃ h1 y h2, makeLocal h x sub = (h1, .ok y) ∧ delInt h1 p ((n : Int) + 1 - (h.kids p).length) = (h2, .ok y) ∧
      h2.kids p = ((h.kids p).eraseIdx (n + 1)).insertIdx n x ∧ h2.kids p ≠ h.kids p := by
  obtain ⟨h1, y, n', m', e1, S, n1, n2, n3, e2, e3, e4, ⟨lr, g1, g2⟩, e5⟩ := after_local W hx hl hp hph hm sub
  have hnn : n' = n + 1 := by
    have a := List.getElem?_eq_some_iff.1 n1
    have b := List.getElem?_eq_some_iff.1 hn
    exact ((W.kids_nodup p).getElem_inj_iff (hi := a.1) (hj := b.1)).1 (a.2.trans b.2.symm)
  subst hnn
  have hlt := (List.getElem?_eq_some_iff.1 hn).1
  have hlen : (h1.kids p).length = (h.kids p).length := by rw [n2]; simp
  have hd := delInt_cover S.wf (k := (n : Int) + 1 - (h.kids p).length) (n := n + 1) g1 (by
    unfold pyPos; rw [hlen, if_neg (by omega), if_pos (by omega)]; congr 1; omega) n3 g2 e5
  obtain ⟨q, C, F, _, _, _, j, _, _, e⟩ := uncover_eq S.wf (x := x) ((n : Int) + 1 - (h.kids p).length) n3 m' e2
  rw [e] at hd
  have her : (h1.kids p).eraseIdx (n + 1) = (h.kids p).eraseIdx (n + 1) := by rw [n2, List.eraseIdx_set_eq]
  have hk : pyInsert ((h1.kids p).eraseIdx (n + 1)) ((n : Int) + 1 - (h.kids p).length) x = ((h.kids p).eraseIdx (n + 1)).insertIdx n x := by
    rw [her]
    unfold pyInsert pyInsPos
    rw [if_pos (by omega), List.length_eraseIdx_of_lt hlt]
    congr 1; omega
  refine ⟨h1, y, _, e1, hd, ?_, ?_⟩
  · rw [← hk]
    simp only [Heap.kids, Heap.setParent, Heap.setFams, Heap.setItems, Heap.modify, if_true]; repeat' (first | rfl | split)
  · have : ((((((q.setItems p (pyInsert ((h1.kids p).eraseIdx (n + 1)) ((n : Int) + 1 - (h.kids p).length) x)).setFams p (F.set (h1.tag y) (pySet (famView h1 p (h1.tag y)) m' x))).setParent x
      (some ⟨p, (n : Int) + 1 - (h.kids p).length, m', false⟩)).setParent y none)).kids p) = ((h.kids p).eraseIdx (n + 1)).insertIdx n x := by
      rw [← hk]
      simp only [Heap.kids, Heap.setParent, Heap.setFams, Heap.setItems, Heap.modify, if_true]; repeat' (first | rfl | split)
    rw [this]
    intro hc
    have h1 : (((h.kids p).eraseIdx (n + 1)).insertIdx n x)[n]? = some x := by
      rw [List.getElem?_insertIdx_self]
      rw [if_pos]; rw [List.length_eraseIdx_of_lt hlt]; omega
    rw [hc] at h1
    have a := List.getElem?_eq_some_iff.1 h1
    have b := List.getElem?_eq_some_iff.1 hn
    have := ((W.kids_nodup p).getElem_inj_iff (hi := a.1) (hj := b.1)).1 (a.2.trans b.2.symm)
    omega

/-! ### a concrete link root -/

/-- a loaded link root `L` with the linked children `P(Q(U), S)` and `R` -/
def linkTree : Tree := .node 0 (.str "L") (.int 0) Flags.linkRoot none [
  .node 0 (.str "P") (.int 1) Flags.linked none [.node 0 (.str "Q") (.int 2) Flags.linked none [.node 0 (.str "U") (.int 3) Flags.linked none []], .node 0 (.str "S") (.int 4) Flags.linked none []],
  .node 0 (.str "R") (.int 5) Flags.linked none []]

/-- its heap: `L` 0, `P` 1, `Q` 2, `U` 3, `S` 4, `R` 5 -/
def linkHeap : Heap := (build Heap.empty linkTree).1.modify 0 fun n => { n with link := some { path := [.str "X"], loaded := true, tags := [.str "P", .str "R"], keys := [(.str "P", 0), (.str "R", 0)] } }

theorem linkHeap_wf : WF linkHeap := by
  unfold linkHeap
  refine StructEq.wf (DataOnly.structEq ?_ _ 0) (build_spec core_empty.wf linkTree).wf
  constructor <;> intro <;> rfl

/-- C73 (defect). The subtree of the local item has another structure: from `P(Q(U), S)` one gets `P(Q(U, S))`. -/
theorem C73_structure_wrong : ∃ (h : Heap) (x y : Id) (h' : Heap), WF h ∧ makeLocal h x true = (h', .ok y) ∧ ∃ q u s q' u' s' : Id,
    h.kids x = [q, s] ∧ h.kids q = [u] ∧ h'.kids y = [q'] ∧ h'.kids q' = [u', s'] ∧ [q', u', s'].map h'.tag = [q, u, s].map h.tag :=
  ⟨linkHeap, 1, 6, (makeLocal linkHeap 1 true).1, linkHeap_wf, Prod.ext rfl (by decide +kernel), 2, 3, 4, 7, 8, 9, by decide +kernel⟩

/-- the hypotheses of the theorems are met -/
example : 5 ∈ linkHeap.kids 0 ∧ (linkHeap.flags 5).has Flags.linked = true ∧ (linkHeap.flags 0).has Flags.linkRoot = true ∧ (linkHeap.flags 5).has Flags.placeholder = false ∧
    (linkHeap.tagIdx 5).2 = .ok (.pair (.str "R") 0) ∧ (linkHeap.kids 0)[0 + 1]? = some 5 := by decide +kernel
/-- `L(P, R)`: `R` made local, deleted by the index 1 and by the index -1 -/
example : (makeLocal linkHeap 5 true).1.kids 0 = [1, 6] ∧ (delInt (makeLocal linkHeap 5 true).1 0 1).1.kids 0 = [1, 5] ∧ (delInt (makeLocal linkHeap 5 true).1 0 (-1)).1.kids 0 = [5, 1] := by decide +kernel
/-- an item two levels below the link root cannot be made local -/
example : (linkHeap.flags 2).has Flags.linked = true ∧ linkHeap.par 2 = some 1 ∧ (linkHeap.flags 1).has Flags.linkRoot = false := by decide +kernel
end ITree
