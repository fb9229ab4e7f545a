import Verif.Props.Nested
import Verif.Proofs.Ready3
/-
C84: links to items that contain link roots, loaded in any order.
-/
namespace ITree

/-- the link roots of the list are loaded one after the other, without force; every call delivers a result -/
inductive LoadsInTurn (fe : FileEnv) (n : Nat) : Heap → List Id → Heap → Prop
  | nil (h : Heap) : LoadsInTurn fe n h [] h
  | cons {h h1 h2 : Heap} {p : Id} {ps : List Id} {b : Bool} : loadLinks (linkEnv fe) false n h p = (h1, .ok b) → LoadsInTurn fe n h1 ps h2 → LoadsInTurn fe n h (p :: ps) h2

section
variable {ms : ModelSet} {h : Heap} {m n : Nat} {p : Id}

/-- what `CanLoad` says about a link root that does not wait any more -/
theorem CanLoad.upToDate {X : Id → Prop} {lk : LinkSt} (R : CanLoad h X m p) (e : (h.node p).link = some lk) (d : lk.loaded = true) : ∃ s, Source h p s ∧ UpToDate h p s lk := by
  cases R with
  | @mk _ _ s lk' a b c d' e' f u v w l n st =>
    rw [e, Option.some.injEq] at e'
    subst e'
    rcases st with ⟨x, _⟩ | x
    · rw [d] at x; cases x
    · exact ⟨s, ⟨lk, e, v.to⟩, x⟩

/-- C84. Loading a link root when link roots it needs are not loaded, or are loaded already (for themselves or for others), in every state reached by building trees and loading: the call succeeds; it delivers True iff the
link root was waiting, and otherwise changes nothing; afterwards its children are linked items that show the children of the target; only link roots that were waiting got children; and all link roots that were ready, also those
that need the same ones, still are.
(Missing, for all of C84: paths through link roots, links into files, link roots that have children of their own.) -/
theorem C84_ready_partial (G : BuiltUp ms h) (fe : FileEnv) (R : CanLoad h (fun _ => False) m p) (hm : m ≤ n) :
    ∃ (h' : Heap) (b : Bool) (s : Id) (Ts : List Tree), loadLinks (linkEnv fe) false n h p = (h', .ok b) ∧ BuiltUp ms h' ∧ (b = true ↔ Waiting h p) ∧ (b = false → h' = h) ∧ Source h p s ∧ h'.kids p = Ts.map Tree.id ∧
      (∀ T ∈ Ts, Rep h' T ∧ ∀ i ∈ T.ids, (h'.flags i).has Flags.linked = true) ∧ ShowsAll h (h.kids s) Ts ∧ LoadsOnly (Waiting h) h h' ∧ (∀ k q, CanLoad h (fun _ => False) k q → CanLoad h' (fun _ => False) k q) := by
  have C := G.tidy.reach.core
  have Z := G.tidy.inv.2
  obtain ⟨h', b, lk, e, T, P, R', l1, l2, hb, hs⟩ := ready_loads fe m n h _ p C Z G.fresh R hm
  obtain ⟨s, S, -, -, -, Ts, t1, t2, t3⟩ := R'.upToDate l1 l2
  obtain ⟨s0, S0, S1, sl, sr, sk⟩ := T.src C Z R (fun _ => False.elim)
  obtain rfl := S1.unique S
  have ek := T.only.kids s0 sl (T.free' sr)
  rw [ek] at t3
  have B := G.ready fe R hm
  rw [e] at B
  refine ⟨h', b, s0, Ts, e, B, hb, hs, S0, t1, t2, ⟨t3.1, fun i c U hc hU => ?_⟩, ?_, fun k q Rq => T.ready C Z (fun _ => False.elim) Rq⟩
  · have hm := List.mem_of_getElem? hc
    exact T.back C Z (fun _ => False.elim) (t3.2 i c U hc hU) (C.wf.kids_lt s0 c hm) fun hr => sk c hm hr
  · have O := T.only.mono (Y := Waiting h) fun i _ hi => (hi.resolve_left id).1
    exact ⟨O.next, O.tag, O.value, O.flags, P, O.kids, O.link⟩

/-- C84. Loading it again does nothing at all. -/
theorem C84_again_partial (G : BuiltUp ms h) (fe : FileEnv) (R : CanLoad h (fun _ => False) m p) (hm : m ≤ n) {h' : Heap} {b : Bool} (e : loadLinks (linkEnv fe) false n h p = (h', .ok b)) :
    loadLinks (linkEnv fe) false n h' p = (h', .ok false) := by
  obtain ⟨h1, b1, lk, e1, T, P, R', l1, l2, _⟩ := ready_loads fe m n h _ p G.tidy.reach.core G.tidy.inv.2 G.fresh R hm
  rw [e] at e1
  obtain rfl := (Prod.mk.inj e1).1
  obtain ⟨h2, b2, _, e2, _, _, _, _, _, hb, hs⟩ := ready_loads fe m n h' _ p T.keeps.core (T.keeps.nz G.tidy.inv.2) T.fresh R' hm
  have : b2 = false := by
    cases b2 with
    | false => rfl
    | true =>
      obtain ⟨_, _, _, lk', x, y⟩ := hb.1 rfl
      rw [l1, Option.some.injEq] at x
      subst x
      rw [l2] at y; cases y
  subst this
  rw [e2, hs rfl]

/-- C84. Any number of link roots that are ready can be loaded one after the other, in any order, the same one more than once: every call delivers a result, and at the end every one of them is up to date. -/
theorem C84_any_order_partial (G : BuiltUp ms h) (fe : FileEnv) (ps : List Id) (H : ∀ p ∈ ps, ∃ m, m ≤ n ∧ CanLoad h (fun _ => False) m p) :
    ∃ h', LoadsInTurn fe n h ps h' ∧ BuiltUp ms h' ∧ ∀ p ∈ ps, ∃ s lk, Source h p s ∧ (h'.node p).link = some lk ∧ UpToDate h' p s lk ∧ loadLinks (linkEnv fe) false n h' p = (h', .ok false) := by
  have main : ∀ (ps : List Id) (h : Heap), BuiltUp ms h → (∀ p ∈ ps, ∃ m, m ≤ n ∧ CanLoad h (fun _ => False) m p) →
      ∃ h', LoadsInTurn fe n h ps h' ∧ BuiltUp ms h' ∧ (∀ k q, CanLoad h (fun _ => False) k q → CanLoad h' (fun _ => False) k q) ∧ (∀ k q s, CanLoad h (fun _ => False) k q → Source h' q s → Source h q s) ∧
        (∀ k q lk, CanLoad h (fun _ => False) k q → (h.node q).link = some lk → lk.loaded = true → ∃ lk, (h'.node q).link = some lk ∧ lk.loaded = true) ∧
        ∀ p ∈ ps, ∃ lk, (h'.node p).link = some lk ∧ lk.loaded = true := by
    intro ps
    induction ps with
    | nil => exact fun h G _ => ⟨h, .nil h, G, fun _ _ R => R, fun _ _ _ _ S => S, fun _ _ lk _ e d => ⟨lk, e, d⟩, fun p hp => by cases hp⟩
    | cons p ps ih =>
      intro h G H
      have C := G.tidy.reach.core
      have Z := G.tidy.inv.2
      obtain ⟨m, hm, R⟩ := H p (by simp)
      obtain ⟨h1, b, lk, e, T, P, R', l1, l2, _⟩ := ready_loads fe m n h _ p C Z G.fresh R hm
      have B := G.ready fe R hm
      rw [e] at B
      have keep : ∀ k q, CanLoad h (fun _ => False) k q → CanLoad h1 (fun _ => False) k q := fun k q Rq => T.ready C Z (fun _ => False.elim) Rq
      have stays : ∀ q, q < h.next → ∀ lk, (h.node q).link = some lk → lk.loaded = true → (h1.node q).link = some lk := by
        intro q hq lk e d
        rw [T.only.link q hq ?_]
        · exact e
        · rintro (x | ⟨⟨_, _, _, lk', x, y⟩, _⟩)
          · exact x
          · rw [e, Option.some.injEq] at x; subst x; rw [d] at y; cases y
      obtain ⟨h', L, B', k1, k2, k3, k4⟩ := ih h1 B fun q hq => by obtain ⟨m, hm, Rq⟩ := H q (by simp [hq]); exact ⟨m, hm, keep m q Rq⟩
      refine ⟨h', .cons e L, B', fun k q Rq => k1 k q (keep k q Rq), fun k q s Rq S => ?_, fun k q lk Rq e d => k3 k q lk (keep k q Rq) (stays q Rq.lt lk e d) d, fun q hq => ?_⟩
      · have S1 := k2 k q s (keep k q Rq) S
        obtain ⟨s0, q1, q2, _⟩ := T.src C Z Rq (fun _ => False.elim)
        obtain rfl := q2.unique S1
        exact q1
      · rcases List.mem_cons.1 hq with rfl | hq
        · exact k3 m q lk R' l1 l2
        · exact k4 q hq
  obtain ⟨h', L, B, k1, k2, _, k4⟩ := main ps h G H
  refine ⟨h', L, B, fun p hp => ?_⟩
  obtain ⟨m, hm, R⟩ := H p hp
  obtain ⟨lk, e, d⟩ := k4 p hp
  obtain ⟨s, S, U⟩ := (k1 m p R).upToDate e d
  refine ⟨s, lk, k2 m p s R S, e, U, ?_⟩
  obtain ⟨h2, b2, _, e2, _, _, _, _, _, hb, hs⟩ := ready_loads fe m n h' _ p B.tidy.reach.core B.tidy.inv.2 B.fresh (k1 m p R) hm
  have : b2 = false := by
    cases b2 with
    | false => rfl
    | true =>
      obtain ⟨_, _, _, lk', x, y⟩ := hb.1 rfl
      rw [e, Option.some.injEq] at x
      subst x
      rw [d] at y; cases y
  subst this
  rw [e2, hs rfl]

end

/-! A tree `R(A(x, L), B(y), P, Q)`: the links of `P` and `Q` lead to `A`, the link of `L` to `B`. -/

/-- the calls -/
def twiceCalls : List Call := nestCalls ++ [.newLink (.str "Q") .noValue [] 0#6 none [.pair (.str "A") (.int 0)], .append 0 (.item 7)]
def twiceHeap : Heap := run ms0 Heap.empty twiceCalls
theorem twiceHeap_grown : BuiltUp ms0 twiceHeap := grown_run _ .empty (by decide +kernel) (by decide +kernel)

theorem twice_inner : CanLoad twiceHeap (fun _ => False) 1 5 := by
  refine .mk (s := 3) (lk := { path := [.str "R", .int 1] }) id (by decide +kernel) (by decide +kernel) (by decide +kernel) (by decide +kernel) (Or.inl rfl) (by decide +kernel) ?_
    (by decide +kernel) (by decide +kernel) ?_ (.inl ⟨by decide +kernel, by decide +kernel⟩)
  · rw [show twiceHeap.root 5 = 0 by decide +kernel, show dropRoot (twiceHeap.tag 0) [.str "R", .int 1] = [.int 1] by decide +kernel]
    exact .step (by decide +kernel) (by decide +kernel) (.idx ⟨1, by decide +kernel, Or.inl rfl⟩ (.here 3)) (.here 3)
  · rw [show twiceHeap.kids 3 = [4] by decide +kernel]
    intro c hc hr
    rw [List.mem_singleton] at hc; subst hc
    exact absurd hr (by decide +kernel)

theorem twice_outer (p : Id) (hp : p = 6 ∨ p = 7) : CanLoad twiceHeap (fun _ => False) 2 p := by
  have f : ∀ p : Id, p = 6 ∨ p = 7 → p < twiceHeap.next ∧ twiceHeap.isLinkRoot p = true ∧ (twiceHeap.flags p).has Flags.linked = false ∧ (twiceHeap.node p).link = some { path := [.pair (.str "A") (.int 0)] } ∧
      twiceHeap.root p = 0 ∧ twiceHeap.kids p = [] := by
    rintro p (rfl | rfl) <;> decide +kernel
  obtain ⟨f1, f2, f3, f4, f5, f6⟩ := f p hp
  refine .mk (s := 1) (lk := { path := [.pair (.str "A") (.int 0)] }) id f1 f2 f3 f4 (Or.inl rfl) (by rw [f5]; decide +kernel) ?_ (by decide +kernel) (by decide +kernel) ?_ (.inl ⟨rfl, f6⟩)
  · rw [f5, show dropRoot (twiceHeap.tag 0) [.pair (.str "A") (.int 0)] = [.pair (.str "A") (.int 0)] by decide +kernel]
    exact .step (by decide +kernel) (by decide +kernel) (.key ⟨0, by decide +kernel, Or.inl rfl⟩ (.here 1)) (.here 1)
  · rw [show twiceHeap.kids 1 = [2, 5] by decide +kernel]
    intro c hc hr
    simp only [List.mem_cons, List.not_mem_nil, or_false] at hc
    rcases hc with rfl | rfl
    · exact absurd hr (by decide +kernel)
    · exact twice_inner

/-- `P` and `Q` both need `L`; they can be loaded in both orders, and `L` before or after them -/
example : ∀ ps ∈ [[6, 7, 5], [7, 6], [5, 7, 6, 7]], ∃ h', LoadsInTurn noFiles 2 twiceHeap ps h' ∧ BuiltUp ms0 h' ∧
    ∀ p ∈ ps, ∃ s lk, Source twiceHeap p s ∧ (h'.node p).link = some lk ∧ UpToDate h' p s lk ∧ loadLinks (linkEnv noFiles) false 2 h' p = (h', .ok false) := by
  intro ps hps
  refine C84_any_order_partial twiceHeap_grown noFiles ps fun p hp => ?_
  have : p = 5 ∨ p = 6 ∨ p = 7 := by
    simp only [List.mem_cons, List.not_mem_nil, or_false] at hps
    rcases hps with rfl | rfl | rfl <;> simp at hp <;> omega
  rcases this with rfl | h
  · exact ⟨1, by omega, twice_inner⟩
  · exact ⟨2, by omega, twice_outer p h⟩

/-- `L` is loaded on the way with `P`; then `Q` finds it loaded, and gets the same children -/
example : ((loadLinks (linkEnv noFiles) false 2 (loadLinks (linkEnv noFiles) false 2 twiceHeap 6).1 7).1.kids 7).map (loadLinks (linkEnv noFiles) false 2 (loadLinks (linkEnv noFiles) false 2 twiceHeap 6).1 7).1.tag = [.str "x", .str "L"] := by
  decide +kernel

/-- `P`, `Q` and `L` loaded one after the other -/
def allLoaded : Heap := [6, 7, 5].foldl (fun h p => (loadLinks (linkEnv noFiles) false 2 h p).1) twiceHeap

theorem twice_both (p : Id) (hp : p = 5 ∨ p = 6 ∨ p = 7) : CanLoad twiceHeap (fun _ => False) 2 p := by
  rcases hp with rfl | h
  · exact twice_inner.up
  · exact twice_outer p h

/-- C84 (defect). A copy of a link root has a link that is not loaded (`copyLink`), even if its children were copied with it.  So after every link root was loaded, so that loading any of them again delivers False and does nothing
(C84_again_partial), `load_links()` on the root of the tree still delivers True: it loads the linked copy of `L` below `P`, whose only child – a linked item – is taken for a local item and becomes the cover of a new item. -/
theorem C84_copies_wrong : BuiltUp ms0 allLoaded ∧ (∀ p, p < allLoaded.next → allLoaded.isLinkRoot p = true → (allLoaded.flags p).has Flags.linked = false → loadLinks (linkEnv noFiles) false 2 allLoaded p = (allLoaded, .ok false)) ∧
    ∃ c x y g, allLoaded.par c = some 6 ∧ allLoaded.isLinkRoot c = true ∧ (allLoaded.flags c).has Flags.linked = true ∧ allLoaded.kids c = [x] ∧ (allLoaded.flags x).has Flags.linked = true ∧ (allLoaded.node x).link = none ∧
      allLoaded.next ≤ y ∧ callLoadLinks (linkEnv noFiles) false 201 60 allLoaded 0 = some (g, .ok true) ∧ g.kids c = [x] ∧ (g.flags x).has Flags.linked = true ∧ (g.node x).link = some { cover := some y } := by
  obtain ⟨h', e, G, H⟩ := C84_any_order_partial twiceHeap_grown noFiles (n := 2) [6, 7, 5] fun p hp => ⟨2, by omega, twice_both p (by simp at hp; omega)⟩
  have eq : h' = allLoaded := by
    cases e with | cons e e1 => cases e1 with | cons e2 e3 => cases e3 with | cons e4 e5 => cases e5; simp [allLoaded, e, e2, e4]
  subst eq
  have f : ∀ p, p < allLoaded.next → allLoaded.isLinkRoot p = true → (allLoaded.flags p).has Flags.linked = false → p ∈ [6, 7, 5] := by decide +kernel
  refine ⟨G, fun p hp hr hl => ?_, 10, 11, 15, ?_⟩
  · obtain ⟨_, _, _, _, _, e⟩ := H p (f p hp hr hl)
    exact e
  · have d : (callLoadLinks (linkEnv noFiles) false 201 60 allLoaded 0).any (fun r => (match r.2 with | .ok b => b | .error _ => false) && decide (r.1.kids 10 = [11]) && (r.1.flags 11).has Flags.linked && decide ((r.1.node 11).link = some { cover := some 15 })) = true := by
      decide +kernel
    rw [Option.any_eq_true] at d
    obtain ⟨⟨g, r⟩, e1, e2⟩ := d
    simp only [Bool.and_eq_true, decide_eq_true_eq] at e2
    obtain ⟨⟨⟨a, b⟩, c⟩, d⟩ := e2
    have : r = .ok true := by
      cases r with
      | error _ => simp at a
      | ok b => simpa using a
    subst this
    exact ⟨g, by decide +kernel, by decide +kernel, by decide +kernel, by decide +kernel, by decide +kernel, by decide +kernel, by decide +kernel, e1, b, c, d⟩

end ITree
