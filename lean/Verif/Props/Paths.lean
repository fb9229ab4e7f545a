import Verif.Proofs.Paths2
import Verif.Props.Positions
import Verif.Props.Deep
/-
C29: the iterators delivering paths.
-/
namespace ITree

variable {ms : ModelSet} {h : Heap}

/-- `deep.idx_paths(f, options)` delivers for every filter and all options the items of `deep.iter(f, options)`, in this order, each together with
its `idx_path`; consuming the iterator changes nothing observable. -/
theorem C29_idx_paths (R : Tidy ms h) (x : Id) (f : Option (Id → Bool)) (options : Nat) :
    ∃ (out : List (List Int × Id)) (h' : Heap) (l : List Id), Delivers (fun n => idxPaths n h x f options) (out, .ok h') ∧
      Delivers (fun n => deepIter n h x f options) l ∧ out.map Prod.snd = l ∧ Unchanged h h' ∧
      ∀ e ∈ out, (h.idxPath e.2).2 = .ok e.1 ∧ byIdx h (h.root x) e.1 = .ok e.2 := by
  obtain ⟨C, Z⟩ := R.inv
  -- the path of `x`
  have full : ∀ y, ∃ k r is h1, ancestor h k y = some r ∧ h.root y = r ∧ h.par r = none ∧ h.idxPath y = (h1, .ok is) ∧ CEq h h1 ∧
      byIdx h r is = .ok y ∧ (∀ i ∈ is, 0 ≤ i) := by
    intro y
    obtain ⟨k, r, e1, e2, e3⟩ := climb C Z y
    obtain ⟨h1, is, g1, g2, g3, g4, g5⟩ := idxPathAux_spec k h.next h y r [] C Z e1 e2 e3
    exact ⟨k, r, is, h1, e1, rootAux_eq k _ y r e1 e2 e3, e2, by rw [Heap.idxPath, g1]; simp, g2, g4, g5⟩
  obtain ⟨kx, rx, px, h1, a1, a2, a3, a4, H1, a6, a7⟩ := full x
  -- any longer path is the path of the item it leads to
  have same : ∀ (r : List Int) (y : Id), byIdx h x r = .ok y → (∀ i ∈ r, 0 ≤ i) → (h.idxPath y).2 = .ok (px ++ r) ∧ byIdx h (h.root x) (px ++ r) = .ok y := by
    intro r y hy hr
    have e0 : byIdx h rx (px ++ r) = .ok y := by rw [byIdx_append, a6]; exact hy
    obtain ⟨ky, ry, py, h2, b1, b2, b3, b4, H2, b6, b7⟩ := full y
    have hroot : ry = rx := by
      -- both are the root above `y`
      have hb : Below h rx y := byIdx_below _ _ _ e0
      have hb' : Below h ry y := byIdx_below _ _ _ b6
      have key : ∀ {y}, Below h rx y → ∀ {r'}, h.par r' = none → Below h r' y → r' = rx := by
        intro y hb
        induction hb with
        | refl =>
          intro r' hr' hb'
          cases hb' with
          | refl => rfl
          | step _ hk => rw [par_child C.wf hk] at a3; simp at a3
        | step hp hk ih =>
          intro r' hr' hb'
          cases hb' with
          | refl => rw [par_child C.wf hk] at hr'; simp at hr'
          | step hp' hk' =>
            obtain rfl := uniq_parent C.wf hk hk'
            exact ih hr' hp'
      exact key hb b3 hb'
    subst hroot
    have := byIdx_inj C.wf C.forest _ _ _ _ b6 e0 b7 (by
      intro i hi
      rcases List.mem_append.1 hi with hi | hi
      · exact a7 i hi
      · exact hr i hi)
    rw [b4, ← this, a2]
    exact ⟨rfl, b6⟩
  have run : ∀ (g : Id → Bool), ∃ (out : List (List Int × Id)) (h' : Heap),
      Delivers (fun n => pathHelper (idxLab (IterOpts.ofInt options).reverse) n h1 x px g false (IterOpts.ofInt options)) (out, .ok h') ∧
      Delivers (fun n => iterHelper n h x g (IterOpts.ofInt options)) (out.map Prod.snd) ∧ Unchanged h h' ∧
      ∀ e ∈ out, (h.idxPath e.2).2 = .ok e.1 ∧ byIdx h (h.root x) e.1 = .ok e.2 := by
    intro g
    have W1 := H1.wf C.wf
    have C1 := C.ceq H1
    have Rp := tree_rep C1.wf C1.forest x
    have hid := tree_id h1 x
    have Rp0 := tree_rep C.wf C.forest x
    have ht : h1.tree x = h.tree x := H1.tree x
    obtain ⟨out, h', d, c, m, l⟩ : ∃ (out : List (List Int × Id)) (h' : Heap),
        Delivers (fun n => pathHelper (idxLab (IterOpts.ofInt options).reverse) n h1 (h1.tree x).id px g false (IterOpts.ofInt options)) (out, .ok h') ∧ CEq h1 h' ∧
        out.map Prod.snd = fullOrder g (IterOpts.ofInt options) (h1.tree x) ++
          (if false && (IterOpts.ofInt options).self && g (h1.tree x).id then [(h1.tree x).id] else []) ∧
        ∀ e ∈ out, ∃ r : List Int, e.1 = px ++ r ∧ Leads (l := idxLab (IterOpts.ofInt options).reverse) h1 (tlIdx h1) (h1.tree x).id r e.2 :=
      pathHelper_delivers (idxLab_good W1 (IterOpts.ofInt options).reverse) Rp
      g px false (by simp)
    rw [hid] at d m l
    refine ⟨out, h', d, ?_, (H1.trans c).unchanged, fun e he => ?_⟩
    · rw [m]
      have := iterHelper_delivers Rp0 g (IterOpts.ofInt options)
      rw [tree_id] at this
      simpa [ht] using this
    · obtain ⟨r, e1, e2⟩ := l e he
      obtain ⟨b1, b2⟩ := Leads.byIdx e2
      rw [byIdx_congr H1.kids] at b1
      rw [e1]
      exact same r e.2 b1 b2
  cases f with
  | none =>
    obtain ⟨out, h', d, i, u, p⟩ := run fun _ => true
    refine ⟨out, h', _, ?_, ?_, rfl, u, p⟩
    · simp only [idxPaths, a4]; exact d
    · simpa [deepIter] using i
  | some f =>
    by_cases ha : (IterOpts.ofInt options).filterAny = true
    · obtain ⟨out, h', d, i, u, p⟩ := run fun _ => true
      refine ⟨out.filter fun e => f e.2, h', (out.map Prod.snd).filter f, ?_, ?_, ?_, u, fun e he => p e (List.mem_filter.1 he).1⟩
      · have := d.map fun q : List (List Int × Id) × Except Err Heap => (q.1.filter fun e => f e.2, q.2)
        simp only [idxPaths, a4, ha, if_true]; exact this
      · have := i.map (List.filter f)
        simpa [deepIter, ha] using this
      · rw [List.filter_map]; rfl
    · obtain ⟨out, h', d, i, u, p⟩ := run f
      refine ⟨out, h', _, ?_, ?_, rfl, u, p⟩
      · simp only [idxPaths, a4, ha, Bool.false_eq_true, if_false]; exact d
      · simpa [deepIter, ha] using i

example : ∃ h', idxPaths 20 demo 0 none 9 = some ([([], 0), ([0], 1), ([0, 0], 4), ([1], 2), ([2], 3), ([3], 5)], .ok h') := ⟨_, rfl⟩
example : ∃ h', idxPaths 20 demo 1 none 4 = some ([([0, 0], 4)], .ok h') := ⟨_, rfl⟩

/-- `deep.tag_idx_paths(f, options)` (partial): the same items in the same order, each with a path that continues the `tag_idx_path` of `x` by pairs
(tag, number in the family) leading from `x` to the item; consuming changes nothing observable.  Missing: the call with SELF and a hierarchical filter in
top-down direction, which delivers `x` twice (`C29_tag_idx_paths_self_twice`), and the path of `x` itself may contain bare numbers (`C18`). -/
theorem C29_tag_idx_paths_partial (R : Tidy ms h) (x : Id) (f : Option (Id → Bool)) (options : Nat)
    (hf : f = none ∨ (IterOpts.ofInt options).self = false ∨ (IterOpts.ofInt options).up = true ∨ (IterOpts.ofInt options).reverse = true ∨
      (IterOpts.ofInt options).filterAny = true) :
    ∃ (out : List (List TagIdx × Id)) (h' : Heap) (l : List Id), Delivers (fun n => tagIdxPaths n h x f options) (out, .ok h') ∧
      Delivers (fun n => deepIter n h x f options) l ∧ out.map Prod.snd = l ∧ Unchanged h h' ∧
      ∃ px : List TagIdx, (h.tagIdxPath x).2 = .ok px ∧
        ∀ e ∈ out, ∃ ps : List (Tag × Int), e.1 = px ++ ps.map (fun q => TagIdx.pair q.1 q.2) ∧ byTagIdx h x ps = .ok e.2 := by
  obtain ⟨C, Z⟩ := R.inv
  obtain ⟨kx, rx, e1, e2, e3⟩ := climb C Z x
  obtain ⟨h1, px, _, g1, H1, _⟩ := tagIdxPathAux_spec kx h.next h x rx [] C Z e1 e2 e3
  have a4 : h.tagIdxPath x = (h1, .ok px) := by rw [Heap.tagIdxPath, g1]; simp
  have run : ∀ (g : Id → Bool) (tw : Bool), (tw = true → (IterOpts.ofInt options).up = false ∧ (IterOpts.ofInt options).reverse = false) →
      (tw = true → (IterOpts.ofInt options).self = false) → ∃ (out : List (List TagIdx × Id)) (h' : Heap),
      Delivers (fun n => pathHelper (tagLab (IterOpts.ofInt options).reverse) n h1 x px g tw (IterOpts.ofInt options)) (out, .ok h') ∧
      Delivers (fun n => iterHelper n h x g (IterOpts.ofInt options)) (out.map Prod.snd) ∧ Unchanged h h' ∧
      ∀ e ∈ out, ∃ ps : List (Tag × Int), e.1 = px ++ ps.map (fun q => TagIdx.pair q.1 q.2) ∧ byTagIdx h x ps = .ok e.2 := by
    intro g tw htw hself
    have W1 := H1.wf C.wf
    have C1 := C.ceq H1
    have Rp := tree_rep C1.wf C1.forest x
    have hid := tree_id h1 x
    have Rp0 := tree_rep C.wf C.forest x
    have ht : h1.tree x = h.tree x := H1.tree x
    obtain ⟨out, h', d, c, m, l⟩ : ∃ (out : List (List TagIdx × Id)) (h' : Heap),
        Delivers (fun n => pathHelper (tagLab (IterOpts.ofInt options).reverse) n h1 (h1.tree x).id px g tw (IterOpts.ofInt options)) (out, .ok h') ∧ CEq h1 h' ∧
        out.map Prod.snd = fullOrder g (IterOpts.ofInt options) (h1.tree x) ++
          (if tw && (IterOpts.ofInt options).self && g (h1.tree x).id then [(h1.tree x).id] else []) ∧
        ∀ e ∈ out, ∃ r : List TagIdx, e.1 = px ++ r ∧ Leads (l := tagLab (IterOpts.ofInt options).reverse) h1 (tlTag h1) (h1.tree x).id r e.2 :=
      pathHelper_delivers (tagLab_good W1 (IterOpts.ofInt options).reverse) Rp
      g px tw htw
    rw [hid] at d m l
    have hno : (tw && (IterOpts.ofInt options).self && g x) = false := by
      cases tw with
      | false => simp
      | true => simp [hself rfl]
    refine ⟨out, h', d, ?_, (H1.trans c).unchanged, fun e he => ?_⟩
    · rw [m, hno]
      have := iterHelper_delivers Rp0 g (IterOpts.ofInt options)
      rw [tree_id] at this
      simpa [ht] using this
    · obtain ⟨r, e1, e2⟩ := l e he
      obtain ⟨ps, b1, b2, _⟩ := Leads.byTagIdx W1 e2
      rw [byTagIdx_congr H1.boundFams] at b2
      exact ⟨ps, by rw [e1, b1], b2⟩
  cases f with
  | none =>
    obtain ⟨out, h', d, i, u, p⟩ := run (fun _ => true) false (by simp) (by simp)
    refine ⟨out, h', _, ?_, ?_, rfl, u, px, by rw [a4], p⟩
    · simp only [tagIdxPaths, a4]; exact d
    · simpa [deepIter] using i
  | some f =>
    by_cases ha : (IterOpts.ofInt options).filterAny = true
    · obtain ⟨out, h', d, i, u, p⟩ := run (fun _ => true) false (by simp) (by simp)
      refine ⟨out.filter fun e => f e.2, h', (out.map Prod.snd).filter f, ?_, ?_, ?_, u, px, by rw [a4], fun e he => p e (List.mem_filter.1 he).1⟩
      · have := d.map fun q : List (List TagIdx × Id) × Except Err Heap => (q.1.filter fun e => f e.2, q.2)
        simp only [tagIdxPaths, a4, ha, if_true]; exact this
      · have := i.map (List.filter f)
        simpa [deepIter, ha] using this
      · rw [List.filter_map]; rfl
    · obtain ⟨out, h', d, i, u, p⟩ := run f (!(IterOpts.ofInt options).up && !(IterOpts.ofInt options).reverse) (by simp) (by
        intro h2
        simp only [Bool.and_eq_true, Bool.not_eq_true'] at h2
        rcases hf with hf | hf | hf | hf | hf
        · simp at hf
        · exact hf
        · rw [h2.1] at hf; simp at hf
        · rw [h2.2] at hf; simp at hf
        · exact absurd hf ha)
      refine ⟨out, h', _, ?_, ?_, rfl, u, px, by rw [a4], p⟩
      · simp only [tagIdxPaths, a4, ha, Bool.false_eq_true, if_false]; exact d
      · simpa [deepIter, ha] using i

example : ∃ h', tagIdxPaths 20 demo 0 none 1 =
    some ([([.pair (.other 1) 0], 1), ([.pair (.other 1) 0, .pair .noTag 0], 4), ([.pair (.other 2) 0], 2), ([.pair (.other 1) 1], 3), ([.pair .noTag 0], 5)], .ok h') :=
  ⟨_, rfl⟩

/-- Disagreement: with SELF and a filter the item itself is delivered twice. -/
theorem C29_tag_idx_paths_self_twice : ∃ h', tagIdxPaths 20 demo 1 (some fun _ => true) 9 =
    some ([([.pair (.other 1) 0], 1), ([.pair (.other 1) 0, .pair .noTag 0], 4), ([.pair (.other 1) 0], 1)], .ok h') := ⟨_, rfl⟩

end ITree
