import Verif.Proofs.Circle3
import Verif.Props.Wide
import Verif.Props.Ready
/-
C76: what `load_links()` never touches.
-/
namespace ITree

open Json (Env)

section
variable {ms : ModelSet} {h : Heap}

theorem noCircle (h : Heap) (force : Bool) : Circular h force (fun _ => False) := ⟨fun _ => False.elim, fun _ => False.elim, fun _ => False.elim⟩

/-- the walk over the items below -/
theorem below_keeps (C : Core h) (Z : NoZombie h) {force : Bool} {fe : FileEnv} (hfe : ∀ g f, LoadKeeps force h (fun _ => False) g → LoadKeeps force h (fun _ => False) (fe.load g f).1) (n : Nat) :
    ∀ (k : Nat) (g : Heap) (st : List (Id × Nat)) (b : Bool) {r : Res Bool}, LoadKeeps force h (fun _ => False) g → loadBelow (linkEnv fe) force n k g st b = some r → LoadKeeps force h (fun _ => False) r.1
  | 0, g, st, b, r, K, e => by simp [loadBelow] at e
  | k + 1, g, [], b, r, K, e => by simp only [loadBelow, Option.some.injEq] at e; subst e; exact K
  | k + 1, g, (c, i) :: st, b, r, K, e => by
    rw [loadBelow] at e
    split at e
    · exact below_keeps C Z hfe n k g st b K e
    · next x _ =>
      have A : LoadKeeps force h (fun _ => False) (if g.isLinkRoot x then loadLinks (linkEnv fe) force n g x else (g, .ok false)).1 := by
        split
        · next hr => exact (circle_loads (noCircle h force) C Z hfe n g x K hr).1
        · exact K
      dsimp only at e
      generalize (if g.isLinkRoot x then loadLinks (linkEnv fe) force n g x else (g, .ok false)) = y at A e
      obtain ⟨g1, y⟩ := y
      cases y with
      | error e' => simp only [Option.some.injEq] at e; subst e; exact A
      | ok l => exact below_keeps C Z hfe n k g1 _ _ A e

/-- C76. `load_links(force)` on any item with any links below it – to own items, to files, broken, circular, nested, loaded before or not – and whatever its result: only link roots get other children.  All existing items keep
their tags, values and flags; every item that is no link root keeps its children, in order; every item that is neither linked nor a child of a link root keeps its parent. -/
theorem C76_only_link_roots (T : Tidy ms h) (gz : Gzip) (sha : List Char → List Char) (N : Names) (E : Env) (crc : List Char → Nat) (d : Disk) (m n k : Nat) (force : Bool) {x : Id} {r : Res Bool}
    (e : callLoadLinks (linkEnv (diskEnv gz sha N E crc d m)) force n k h x = some r) :
    h.next ≤ r.1.next ∧ ∀ i, i < h.next → r.1.tag i = h.tag i ∧ (r.1.node i).value = (h.node i).value ∧ r.1.flags i = h.flags i ∧ (h.isLinkRoot i = false → r.1.kids i = h.kids i) ∧
      ((h.flags i).has Flags.linked = false → (∀ q, h.par i = some q → h.isLinkRoot q = false) → r.1.par i = h.par i) := by
  have C := T.reach.core
  have Z := T.inv.2
  have K0 : LoadKeeps force h (fun _ => False) h := .start C.wf
  have hfe := LoadKeeps.disk (noCircle h force) C Z (gz := gz) (sha := sha) (Nm := N) (E := E) (crc := crc) (d := d) m
  have K : LoadKeeps force h (fun _ => False) r.1 := by
    have e' := e
    unfold callLoadLinks at e'
    split at e'
    · simp only [Option.some.injEq] at e'; subst e'; exact K0
    · split at e'
      · next hr => simp only [Option.some.injEq] at e'; subst e'; exact (circle_loads (noCircle h force) C Z hfe _ h x K0 hr).1
      · exact below_keeps C Z hfe _ k h _ _ K0 e'
  refine ⟨K.next, fun i hi => ⟨K.tag i hi, ?_, K.flags i hi, fun hr => (K.node i hi hr).1, fun a b => K.par i ⟨hi, a, b⟩⟩⟩
  have V : Frm (NodeHas i fun n => n.value = (h.node i).value) (fun _ => True) := NodeHas.frm (fun n r e => e) (fun m n k e => k.value.trans e) (fun n f _ e => e)
  have L : AnyLinks (NodeHas i fun n => n.value = (h.node i).value) := NodeHas.anyLinks fun n l e => e
  exact (V.callLoadLinks L (env := linkEnv (diskEnv gz sha N E crc d m)) (fun g p S => Frm.getTarget L (V.diskEnv L m) S) force n k ⟨hi, rfl⟩ e).2

/-- C76. So an item without a link root in or below it contains the same items before and after. -/
theorem C76_only_below (T : Tidy ms h) (gz : Gzip) (sha : List Char → List Char) (N : Names) (E : Env) (crc : List Char → Nat) (d : Disk) (m n k : Nat) (force : Bool) {x : Id} {r : Res Bool}
    (e : callLoadLinks (linkEnv (diskEnv gz sha N E crc d m)) force n k h x = some r) {y : Id} (hy : y < h.next) (hn : ∀ z, Below h y z → h.isLinkRoot z = false) (z : Id) : Below r.1 y z ↔ Below h y z := by
  have H := (C76_only_link_roots T gz sha N E crc d m n k force e).2
  have W := T.reach.core.wf
  have lt : ∀ z, Below h y z → z < h.next := fun z b => by cases b with | refl => exact hy | step _ hc => exact W.kids_lt _ _ hc
  constructor
  · intro b
    induction b with
    | refl => exact .refl
    | step _ hc ih => exact ih.step (by rwa [((H _ (lt _ ih)).2.2.2.1 (hn _ ih))] at hc)
  · intro b
    induction b with
    | refl => exact .refl
    | step b hc ih => exact ih.step (by rwa [((H _ (lt _ b)).2.2.2.1 (hn _ b))])
end

/-- the call on the tree of `P`, `Q` and `L`, with any disk: the item `B` keeps its tag, its child and its parent, and so does `y` below it -/
example (gz : Gzip) (sha : List Char → List Char) (N : Names) (E : Env) (crc : List Char → Nat) (d : Disk) (m k : Nat) (force : Bool) {r : Res Bool}
    (e : callLoadLinks (linkEnv (diskEnv gz sha N E crc d m)) force 201 k twiceHeap 0 = some r) :
    r.1.kids 3 = [4] ∧ r.1.par 3 = some 0 ∧ r.1.kids 0 = [1, 3, 6, 7] ∧ ∀ z, Below r.1 3 z ↔ Below twiceHeap 3 z := by
  have H := (C76_only_link_roots twiceHeap_grown.tidy gz sha N E crc d m 201 k force e).2
  refine ⟨((H 3 (by decide +kernel)).2.2.2.1 (by decide +kernel)).trans (by decide +kernel), ?_, ((H 0 (by decide +kernel)).2.2.2.1 (by decide +kernel)).trans (by decide +kernel),
    C76_only_below twiceHeap_grown.tidy gz sha N E crc d m 201 k force e (by decide +kernel) fun z b => ?_⟩
  · refine ((H 3 (by decide +kernel)).2.2.2.2 (by decide +kernel) fun q hq => ?_).trans (by decide +kernel)
    rw [show twiceHeap.par 3 = some 0 by decide +kernel, Option.some.injEq] at hq
    subst hq
    decide +kernel
  · have W := twiceHeap_grown.tidy.reach.core.wf
    have F := twiceHeap_grown.tidy.reach.core.forest
    have hm : z ∈ (twiceHeap.tree 3).ids := by have := below_iff_ids (tree_rep W F 3) z; rw [tree_id] at this; exact this.1 b
    have : ∀ z ∈ (twiceHeap.tree 3).ids, twiceHeap.isLinkRoot z = false := by decide +kernel
    exact this z hm
/-- such a call delivers a result, and link roots do get children -/
example : ((callLoadLinks (linkEnv noFiles) false 201 60 twiceHeap 0).map fun r => (r.1.kids 5).length + (r.1.kids 6).length + (r.1.kids 7).length) = some 5 ∧ (twiceHeap.kids 5 ++ twiceHeap.kids 6 ++ twiceHeap.kids 7) = [] := by decide +kernel

end ITree
