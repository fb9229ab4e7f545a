import Verif.Proofs.Grown
import Verif.Props.Positions
import Verif.Props.Dot
import Verif.Props.LoadLinks
/-
Trees that were only built up (constructor, append, extend, extendleft, copy, loading), read and given values and flags: all keys can be read at once.  Used for C18, C19, C70, C74.
-/
namespace ITree

/-- histories that only build trees (`Call.builds`) and load links that are ready to be loaded (`Nested`, `CanLoad`): no removal, no reordering, no insertion in the middle; exceptions are caught -/
inductive BuiltUp (ms : ModelSet) : Heap → Prop
  | empty : BuiltUp ms Heap.empty
  | step {h} (c : Call) : BuiltUp ms h → Allowed h c → c.builds = true → BuiltUp ms (step ms h c).1
  | load {h} (fe : FileEnv) {force : Bool} {m : Nat} {p : Id} {D : Id → Prop} (n : Nat) : BuiltUp ms h → Nested h force m p D → BuiltUp ms (loadLinks (linkEnv fe) force n h p).1
  | ready {h} (fe : FileEnv) {m n : Nat} {p : Id} : BuiltUp ms h → CanLoad h (fun _ => False) m p → m ≤ n → BuiltUp ms (loadLinks (linkEnv fe) false n h p).1

theorem BuiltUp.both {ms : ModelSet} {h : Heap} (G : BuiltUp ms h) : Tidy ms h ∧ AllFresh h := by
  induction G with
  | empty => exact ⟨.empty, fun p x hx => by cases hx⟩
  | step c _ ha hc ih =>
    obtain ⟨C, Z⟩ := ih.1.inv
    exact ⟨ih.1.step c ha (by cases c <;> first | rfl | cases hc), step_fresh C Z ih.2 c ha hc⟩
  | load fe n _ N ih =>
    obtain ⟨C, Z⟩ := ih.1.inv
    refine ⟨?_, ((nested_loads fe _ n _ _ _ _ C Z N).2.2.1 ih.2).1⟩
    have hN := N
    cases hN with
    | mk Ds a _ _ d e => exact ih.1.load fe _ n _ ⟨a, _, d, e, .inr (.inr (.inl ⟨ih.1.inv.2, _, _, N⟩))⟩
  | ready fe _ R hm ih =>
    obtain ⟨C, Z⟩ := ih.1.inv
    obtain ⟨h', b, lk, e, T, _⟩ := ready_loads fe _ _ _ _ _ C Z ih.2 R hm
    refine ⟨?_, by rw [e]; exact T.fresh⟩
    have hR := R
    cases hR with
    | mk _ a _ _ d o => exact ih.1.load fe _ _ _ ⟨a, _, d, o, .inr (.inr (.inr ⟨Z, ih.2, rfl, _, hm, R⟩))⟩

theorem BuiltUp.tidy {ms : ModelSet} {h : Heap} (G : BuiltUp ms h) : Tidy ms h := G.both.1
theorem BuiltUp.fresh {ms : ModelSet} {h : Heap} (G : BuiltUp ms h) : AllFresh h := G.both.2

theorem grown_run {ms : ModelSet} : ∀ (cs : List Call) {h : Heap}, BuiltUp ms h → easyRun ms h cs = true → cs.all Call.builds = true → BuiltUp ms (run ms h cs) := by
  intro cs
  induction cs with
  | nil => intro h T _ _; exact T
  | cons c cs ih =>
    intro h T hc hb
    simp only [easyRun, Bool.and_eq_true] at hc
    simp only [List.all_cons, Bool.and_eq_true] at hb
    exact ih (T.step c (easy_allowed hc.1.1) hb.1) hc.2 hb.2

theorem demo_grown : BuiltUp ms0 demo := grown_run _ .empty (by decide) (by decide)

theorem climb_stop {h : Heap} : ∀ (j k : Nat) {x y r : Id}, ancestor h j x = some y → h.par y = none → ancestor h k x = some r → k ≤ j
  | j, 0, x, y, r, _, _, _ => Nat.zero_le _
  | 0, k + 1, x, y, r, h1, h2, h3 => by
    simp only [ancestor, Option.some.injEq] at h1
    subst h1
    simp [ancestor, h2] at h3
  | j + 1, k + 1, x, y, r, h1, h2, h3 => by
    simp only [ancestor] at h1 h3
    cases hp : h.par x with
    | none => simp [hp] at h3
    | some p =>
      simp only [hp] at h1 h3
      exact Nat.succ_le_succ (climb_stop j k h1 h2 h3)

/-- C18. In every state reached by building trees only, `tag_idx` of every child delivers the pair of its tag and its position among the children with this tag – already the first time, and without changing anything
at all. -/
theorem C18_grown {ms : ModelSet} {h : Heap} (G : BuiltUp ms h) {p c : Id} (hc : c ∈ h.kids p) :
    ∃ m : Nat, h.tagIdx c = (h, .ok (.pair (h.tag c) m)) ∧ ((h.kids p).filter fun y => h.tag y = h.tag c)[m]? = some c := by
  have W := G.tidy.reach.core.wf
  obtain ⟨q, m, h1, h2, h3⟩ := tagIdx_of_fresh W ⟨p, hc, G.fresh p c hc⟩
  obtain rfl : p = q := W.parent_unique hc h1
  exact ⟨m, h3, h2⟩

example : BuiltUp ms0 demo ∧ 3 ∈ demo.kids 0 ∧ (demo.tagIdx 3).2 = .ok (.pair (.other 1) 1) := ⟨demo_grown, by decide, by decide⟩

/-- C19. In such states `tag_idx_path` of every item consists of pairs, has the length of its level and leads from the root back to the item. -/
theorem C19_grown {ms : ModelSet} {h : Heap} (G : BuiltUp ms h) (x : Id) :
    ∃ ps : List (Tag × Int), h.tagIdxPath x = (h, .ok (ps.map fun q => TagIdx.pair q.1 q.2)) ∧ ps.length = h.level x ∧ byTagIdx h (h.root x) ps = .ok x := by
  obtain ⟨C, Z⟩ := G.tidy.inv
  obtain ⟨k, r, e1, e2, e3⟩ := climb C Z x
  have er : h.root x = r := rootAux_eq k _ x r e1 e2 e3
  have el : h.level x = k := levelAux_eq k _ x r e1 e2 e3
  have Fr : FreshChain h k x := by
    intro j y hj hy
    have : ∃ q, h.par y = some q := by
      cases hq : h.par y with
      | some q => exact ⟨q, rfl⟩
      | none => 
        exfalso
        have := climb_stop j k hy hq e1
        omega
    obtain ⟨q, hq⟩ := this
    exact ⟨q, Z y q hq, G.fresh q y (Z y q hq)⟩
  obtain ⟨ps, q1, q2, q3⟩ := tagIdxPathAux_fresh k h.next h x r [] C Z e1 e2 e3 Fr
  exact ⟨ps, by rw [Heap.tagIdxPath, q1]; simp, by rw [q2, el], by rw [er]; exact q3⟩

example : (demo.tagIdxPath 4) = (demo, .ok [.pair (.other 1) 0, .pair .noTag 0]) := by
  obtain ⟨ps, e, -, -⟩ := C19_grown demo_grown 4
  have : (demo.tagIdxPath 4).2 = .ok [.pair (.other 1) 0, .pair .noTag 0] := by decide
  rw [e] at this ⊢
  simp only at this
  rw [this]

/-- every item of a grown state whose value is not hidden by a link can be shown in the graph description -/
theorem BuiltUp.showable {ms : ModelSet} {h : Heap} (G : BuiltUp ms h) {y : Id} (hp : (h.flags y).has Flags.linkRoot = true → (h.node y).value = .noValue) : Showable h y := by
  refine ⟨hp, ?_⟩
  cases hq : h.par y with
  | none => exact .inl rfl
  | some q =>
    have := G.tidy.inv.2 y q hq
    exact .inr ⟨q, this, G.fresh q y this⟩

/-- C70 (partial: no link root with a value is shown). In states reached by building trees only, the graph description is complete and right without any reading of positions before. -/
theorem C70_grown_partial {ms : ModelSet} {h : Heap} (G : BuiltUp ms h) (P : DotReprs) (p : Option (Id → Bool)) (x : Id) (hs : ∀ y ∈ x :: Tree.preFL (filterFn p) (h.tree x).kids, (h.flags y).has Flags.linkRoot = true → (h.node y).value = .noValue) :
    dotRender P p h x = (h, .ok ("graph iTree {\n    node [shape=record, fillcolor=cadetblue3, style=\"rounded,filled\"];\n".toList ++ "\n".toList ++
      nodeText P h 0 x ++ ", fillcolor=cadetblue];".toList ++
      (Tree.preFL (filterFn p) (h.tree x).kids).flatMap (nodeAndEdge P h (dotNum (filterFn p) (h.tree x))) ++ "\n}".toList)) :=
  C70_dot_partial G.tidy.reach P p x fun y hy => G.showable (hs y hy)

/-- the hypotheses of `C70_grown_partial` can be met -/
example : BuiltUp ms0 demo ∧ demo.kids 0 ≠ [] ∧ ∀ y ∈ (0 : Nat) :: Tree.preFL (filterFn none) (demo.tree 0).kids, (demo.flags y).has Flags.linkRoot = true → (demo.node y).value = .noValue := by
  refine ⟨demo_grown, by decide, fun y hy h => ?_⟩
  have : ∀ y ∈ (0 : Nat) :: Tree.preFL (filterFn none) (demo.tree 0).kids, (demo.flags y).has Flags.linkRoot = false := by decide +kernel
  rw [this y hy] at h
  cases h

end ITree
