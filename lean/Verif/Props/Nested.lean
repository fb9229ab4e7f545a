import Verif.Proofs.Nested2
import Verif.Props.Grown
import Verif.Props.FindLink
/-
C84: links to items that contain link roots themselves.
-/
namespace ITree

section
variable {ms : ModelSet} {h : Heap} {force : Bool} {m : Nat} {p : Id} {D : Id → Prop}

/-- C84. Loading a link root whose target contains further link roots (at most `m` levels of them), in every state reached by building trees and loading such links: the call succeeds if `m` nested calls are
allowed; the link root gets one new child for every child of the target, which shows this child – a child that is a link root is loaded on the way and shown with what its own link leads to –; and the new state is
one of the same kind, so that all consistency properties hold in it.
(Missing, for all of C84: paths through link roots, links into files, link roots with children of their own; for link roots needed twice see Props/Ready.) -/
theorem C84_load_partial (G : BuiltUp ms h) (fe : FileEnv) (N : Nested h force m p D) {n : Nat} (hm : m ≤ n) :
    ∃ (h' : Heap) (s : Id) (Ts : List Tree), loadLinks (linkEnv fe) force n h p = (h', .ok true) ∧ BuiltUp ms h' ∧ Source h p s ∧ h'.kids p = Ts.map Tree.id ∧ (∀ T ∈ Ts, Rep h' T ∧ ∀ i ∈ T.ids, h.next ≤ i) ∧
      List.Forall₂ (ShowsItem h) (h.kids s) Ts := by
  obtain ⟨K, A, F, H⟩ := nested_loads fe force n m h p D G.tidy.reach.core G.tidy.inv.2 N
  obtain ⟨b, e⟩ := (F G.fresh).2 hm
  have B := G.load fe n N
  generalize loadLinks (linkEnv fe) force n h p = r at e H B ⊢
  obtain ⟨h', q⟩ := r
  simp only at e
  subst e
  obtain ⟨rfl, s, Ts, a1, a2, a3, a4, a5, a6⟩ := H b rfl
  exact ⟨h', s, Ts, rfl, B, a1, a2, fun T hT => ⟨a3 T hT, fun i hi => (a4 T hT i hi).1⟩, List.forall₂_iff_get.2 ⟨a5.symm, fun i h1 h2 => a6 i _ _ (List.getElem?_eq_getElem h1) (List.getElem?_eq_getElem h2)⟩⟩

/-- C84. The same in every reachable state without `sort` and `clear` before, for a call that delivers a result. -/
theorem C84_loaded_partial (T : Tidy ms h) (fe : FileEnv) (N : Nested h force m p D) {n : Nat} {b : Bool} (e : (loadLinks (linkEnv fe) force n h p).2 = .ok b) :
    b = true ∧ ∃ (s : Id) (Ts : List Tree), Source h p s ∧ (loadLinks (linkEnv fe) force n h p).1.kids p = Ts.map Tree.id ∧ (∀ T ∈ Ts, Rep (loadLinks (linkEnv fe) force n h p).1 T ∧ ∀ i ∈ T.ids, h.next ≤ i) ∧
      List.Forall₂ (ShowsItem h) (h.kids s) Ts := by
  obtain ⟨K, A, F, H⟩ := nested_loads fe force n m h p D T.reach.core T.inv.2 N
  obtain ⟨rfl, s, Ts, a1, a2, a3, a4, a5, a6⟩ := H b e
  exact ⟨rfl, s, Ts, a1, a2, fun T hT => ⟨a3 T hT, fun i hi => (a4 T hT i hi).1⟩, List.forall₂_iff_get.2 ⟨a5.symm, fun i h1 h2 => a6 i _ _ (List.getElem?_eq_getElem h1) (List.getElem?_eq_getElem h2)⟩⟩

/-- C84. Whatever the call delivers, only the children and the links of the loaded link roots change; and everything stays consistent. -/
theorem C84_only_partial (T : Tidy ms h) (fe : FileEnv) (N : Nested h force m p D) (n : Nat) :
    LoadsOnly D h (loadLinks (linkEnv fe) force n h p).1 ∧ Tidy ms (loadLinks (linkEnv fe) force n h p).1 := by
  refine ⟨(nested_loads fe force n m h p D T.reach.core T.inv.2 N).2.1, T.load fe force n p ?_⟩
  have hN := N
  cases hN with
  | mk Ds a _ _ d e => exact ⟨a, _, d, e, .inr (.inr (.inl ⟨T.inv.2, _, D, N⟩))⟩

end

/-! A tree `R(A(x, L), B(y), P)`: the link of `P` leads to `A`, the link of `L` to `B`. -/

/-- the calls -/
def nestCalls : List Call := [.new (.str "R") .noValue [] 0#6, .new (.str "A") .noValue [] 0#6, .append 0 (.item 1), .new (.str "x") (.int 1) [] 0#6, .append 1 (.item 2),
  .new (.str "B") .noValue [] 0#6, .append 0 (.item 3), .new (.str "y") (.int 2) [] 0#6, .append 3 (.item 4),
  .newLink (.str "L") .noValue [] 0#6 none [.str "R", .int 1], .append 1 (.item 5), .newLink (.str "P") .noValue [] 0#6 none [.pair (.str "A") (.int 0)], .append 0 (.item 6)]
def nestHeap : Heap := run ms0 Heap.empty nestCalls
theorem nestHeap_grown : BuiltUp ms0 nestHeap := grown_run _ .empty (by decide +kernel) (by decide +kernel)

theorem nest_inner : Nested nestHeap false 1 5 fun i => i = 5 := by
  refine .mk (s := 3) (lk := { path := [.str "R", .int 1] }) (fun _ _ => False) (by decide +kernel) (by decide +kernel) (by decide +kernel) (by decide +kernel) (Or.inl rfl) (Or.inr rfl) ?_
    (by decide +kernel) (by decide +kernel) ?_ ?_ ?_ (fun i => ⟨fun h => Or.inl h, fun h => h.elim id fun ⟨_, _, _, f⟩ => f.elim⟩)
  · rw [show nestHeap.root 5 = 0 by decide +kernel, show dropRoot (nestHeap.tag 0) [.str "R", .int 1] = [.int 1] by decide +kernel]
    exact .step (by decide +kernel) (by decide +kernel) (.idx ⟨1, by decide +kernel, Or.inl rfl⟩ (.here 3)) (.here 3)
  · intro c hc hr
    have : c = 4 := by rw [show nestHeap.kids 3 = [4] by decide +kernel] at hc; simpa using hc
    subst this
    exact absurd hr (by decide +kernel)
  · exact fun _ _ _ f => f
  · exact fun _ _ _ _ _ _ _ _ f => f.elim

theorem nest_outer : Nested nestHeap false 2 6 fun i => i = 6 ∨ i = 5 := by
  refine .mk (s := 1) (lk := { path := [.pair (.str "A") (.int 0)] }) (fun c i => i = c) (by decide +kernel) (by decide +kernel) (by decide +kernel) (by decide +kernel) (Or.inl rfl) (Or.inr rfl) ?_
    (by decide +kernel) (by decide +kernel) ?_ ?_ ?_ ?_
  · rw [show nestHeap.root 6 = 0 by decide +kernel, show dropRoot (nestHeap.tag 0) [.pair (.str "A") (.int 0)] = [.pair (.str "A") (.int 0)] by decide +kernel]
    exact .step (by decide +kernel) (by decide +kernel) (.key ⟨0, by decide +kernel, Or.inl rfl⟩ (.here 1)) (.here 1)
  · intro c hc hr
    have : c = 2 ∨ c = 5 := by rw [show nestHeap.kids 1 = [2, 5] by decide +kernel] at hc; simpa using hc
    rcases this with rfl | rfl
    · exact absurd hr (by decide +kernel)
    · exact nest_inner
  · intro c hc _ e
    subst e
    exact absurd hc (by decide +kernel)
  · intro c _ c' _ _ _ hn i e e'
    exact hn (e.symm.trans e')
  · intro i
    constructor
    · rintro (e | rfl)
      · exact Or.inl e
      · exact Or.inr ⟨5, by decide +kernel, by decide +kernel, rfl⟩
    · rintro (e | ⟨c, hc, hr, rfl⟩)
      · exact Or.inl e
      · have : i = 2 ∨ i = 5 := by rw [show nestHeap.kids 1 = [2, 5] by decide +kernel] at hc; simpa using hc
        rcases this with rfl | rfl
        · exact absurd hr (by decide +kernel)
        · exact Or.inr rfl

example : ∃ (h' : Heap) (s : Id) (Ts : List Tree), loadLinks (linkEnv noFiles) false 201 nestHeap 6 = (h', .ok true) ∧ BuiltUp ms0 h' ∧ Source nestHeap 6 s ∧ h'.kids 6 = Ts.map Tree.id ∧
    (∀ T ∈ Ts, Rep h' T ∧ ∀ i ∈ T.ids, nestHeap.next ≤ i) ∧ List.Forall₂ (ShowsItem nestHeap) (nestHeap.kids s) Ts := C84_load_partial nestHeap_grown noFiles nest_outer (by omega)
/-- `P` has the children `x` and `L`, and this `L` – like the `L` below `A` – the child `y` -/
example : let h' := (loadLinks (linkEnv noFiles) false 201 nestHeap 6).1
    (h'.kids 6).map h'.tag = [.str "x", .str "L"] ∧ (h'.kids 6).map (fun i => (h'.kids i).map h'.tag) = [[], [.str "y"]] ∧ (h'.kids 5).map h'.tag = [.str "y"] ∧
    (h'.kids 6).map (fun i => (h'.flags i).has Flags.linked) = [true, true] ∧ h'.kids 1 = [2, 5] ∧ h'.kids 0 = [1, 3, 6] := by decide +kernel
/-- the number of nested calls counts: one is not enough here -/
example : (loadLinks (linkEnv noFiles) false 1 nestHeap 6).2 = .error .recursion := by decide +kernel
example : LoadsOnly (fun i => i = 6 ∨ i = 5) nestHeap (loadLinks (linkEnv noFiles) false 1 nestHeap 6).1 := (C84_only_partial nestHeap_grown.tidy noFiles nest_outer 1).1

end ITree
