import Verif.Proofs.Circle3
import Verif.Props.FindLink
import Verif.Props.FileLinks
/-
C83: circles of links are refused.
-/
namespace ITree

open Json (Env)

section
variable {ms : ModelSet} {h : Heap} (R : Tidy ms h) (gz : Gzip) (sha : List Char → List Char) (N : Names) (E : Env) (crc : List Char → Nat) (d : Disk) (m : Nat)
include R

/-- C83. Loading a link root of a circle of links raises, whatever nesting is allowed, and whatever the files on the disk are that other links on the way load.
(Missing, for all of C83: circles that lead through files or through the children of link roots.) -/
theorem C83_refused_partial {force : Bool} {S : Id → Prop} (Z : Circular h force S) {p : Id} (hp : S p) (n : Nat) :
    ∃ e, (loadLinks (linkEnv (diskEnv gz sha N E crc d m)) force n h p).2 = .error e :=
  (circle_loads Z R.reach.core R.inv.2 (.disk Z R.reach.core R.inv.2 m) n h p (.start R.reach.core.wf) (Z.root p hp).2).2 hp

/-- C83. `load_links()` on any item that contains a link root of a circle raises: it never comes back with a result. -/
theorem C83_call_partial {force : Bool} {S : Id → Prop} (Z : Circular h force S) {x : Id} (hx : Contains h S x)
    (n k : Nat) {r : Res Bool} (hr : callLoadLinks (linkEnv (diskEnv gz sha N E crc d m)) force n k h x = some r) : ∃ e, r.2 = .error e := by
  cases n with
  | zero => simp only [callLoadLinks, Option.some.injEq] at hr; subst hr; exact ⟨_, rfl⟩
  | succ n =>
    simp only [callLoadLinks] at hr
    cases hx with
    | here sx =>
      rw [if_pos (Z.root x sx).2] at hr
      simp only [Option.some.injEq] at hr; subst hr
      exact C83_refused_partial R gz sha N E crc d m Z sx _
    | @down _ c hlt hrx hc hcc =>
      rw [if_neg (by simp [hrx])] at hr
      obtain ⟨j, hj⟩ := List.mem_iff_getElem?.1 hc
      exact circle_walk Z R.reach.core R.inv.2 (.disk Z R.reach.core R.inv.2 m) n k h [] [] x c 0 j false (.start R.reach.core.wf) hlt hrx hj hcc (Nat.zero_le _) r hr

/-- C83. The refused call leaves the tags and flags of all items alone, and the children of all items that are no link roots.
(Link roots may lose their children: `C74_circle_wrong`.) -/
theorem C83_kept_partial {force : Bool} {S : Id → Prop} (Z : Circular h force S) {p : Id} (hp : S p) (n : Nat) (i : Id)
    (hi : i < h.next) : (loadLinks (linkEnv (diskEnv gz sha N E crc d m)) force n h p).1.tag i = h.tag i ∧ (loadLinks (linkEnv (diskEnv gz sha N E crc d m)) force n h p).1.flags i = h.flags i ∧
      (h.isLinkRoot i = false → (loadLinks (linkEnv (diskEnv gz sha N E crc d m)) force n h p).1.kids i = h.kids i) := by
  have K := (circle_loads (fe := diskEnv gz sha N E crc d m) Z R.reach.core R.inv.2 (.disk Z R.reach.core R.inv.2 m) n h p (.start R.reach.core.wf) (Z.root p hp).2).1
  exact ⟨K.tag i hi, K.flags i hi, fun hr => (K.node i hi hr).1⟩

end

/-! A circle of two links: `R(A(L), B(M))`, the link of `L` leads to `B`, the link of `M` to `A`. -/

/-- the calls -/
def ringCalls : List Call := [.new (.str "R") .noValue [] 0#6, .new (.str "A") .noValue [] 0#6, .append 0 (.item 1), .new (.str "B") .noValue [] 0#6, .append 0 (.item 2),
  .newLink (.str "L") .noValue [] 0#6 none [.str "R", .int 1], .append 1 (.item 3), .newLink (.str "M") .noValue [] 0#6 none [.pair (.str "A") (.int 0)], .append 2 (.item 4)]
def ringHeap : Heap := run ms0 Heap.empty ringCalls
theorem ringHeap_tidy : Tidy ms0 ringHeap := tidy_run _ .empty (by decide +kernel)

theorem ring_anc : ∀ (p : Id), p = 3 ∨ p = 4 → ∀ k a, ancestor ringHeap k p = some a → (k = 0 ∧ a = p) ∨ (k = 1 ∧ a + 2 = p) ∨ (k = 2 ∧ a = 0) := by
  have e0 : ringHeap.par 0 = none := by decide +kernel
  have e1 : ringHeap.par 1 = some 0 := by decide +kernel
  have e2 : ringHeap.par 2 = some 0 := by decide +kernel
  have e3 : ringHeap.par 3 = some 1 := by decide +kernel
  have e4 : ringHeap.par 4 = some 2 := by decide +kernel
  rintro p (rfl | rfl) k a e
  · match k with
    | 0 => simp [ancestor] at e; subst e; exact Or.inl ⟨rfl, rfl⟩
    | 1 => simp [ancestor, e3] at e; subst e; exact Or.inr (Or.inl ⟨rfl, rfl⟩)
    | 2 => simp [ancestor, e3, e1] at e; subst e; exact Or.inr (Or.inr ⟨rfl, rfl⟩)
    | k + 3 => simp [ancestor, e3, e1, e0] at e
  · match k with
    | 0 => simp [ancestor] at e; subst e; exact Or.inl ⟨rfl, rfl⟩
    | 1 => simp [ancestor, e4] at e; subst e; exact Or.inr (Or.inl ⟨rfl, rfl⟩)
    | 2 => simp [ancestor, e4, e2] at e; subst e; exact Or.inr (Or.inr ⟨rfl, rfl⟩)
    | k + 3 => simp [ancestor, e4, e2, e0] at e

theorem ring_circular : Circular ringHeap false fun i => i = 3 ∨ i = 4 where
  root := by rintro p (rfl | rfl) <;> decide +kernel
  own := by
    intro p hp k a e
    rcases ring_anc p hp k a e with ⟨rfl, rfl⟩ | ⟨rfl, ha⟩ | ⟨rfl, rfl⟩
    · rcases hp with rfl | rfl <;> exact ⟨by decide +kernel, fun c => absurd rfl c⟩
    · have : a = 1 ∨ a = 2 := by omega
      rcases this with rfl | rfl <;> exact ⟨by decide +kernel, fun _ => by decide +kernel⟩
    · exact ⟨by decide +kernel, fun _ => by decide +kernel⟩
  next := by
    rintro p (rfl | rfl)
    · refine ⟨{ path := [.str "R", .int 1] }, by decide +kernel, Or.inl rfl, Or.inr rfl, by decide +kernel, 2, 4, ?_, by decide +kernel, by decide +kernel, by decide +kernel, Or.inr rfl⟩
      rw [show ringHeap.root 3 = 0 by decide +kernel, show dropRoot (ringHeap.tag 0) [.str "R", .int 1] = [.int 1] by decide +kernel]
      exact .step (by decide +kernel) (by decide +kernel) (.idx ⟨1, by decide +kernel, Or.inl rfl⟩ (.here 2)) (.here 2)
    · refine ⟨{ path := [.pair (.str "A") (.int 0)] }, by decide +kernel, Or.inl rfl, Or.inr rfl, by decide +kernel, 1, 3, ?_, by decide +kernel, by decide +kernel, by decide +kernel, Or.inl rfl⟩
      rw [show ringHeap.root 4 = 0 by decide +kernel, show dropRoot (ringHeap.tag 0) [.pair (.str "A") (.int 0)] = [.pair (.str "A") (.int 0)] by decide +kernel]
      exact .step (by decide +kernel) (by decide +kernel) (.key ⟨0, by decide +kernel, Or.inl rfl⟩ (.here 1)) (.here 1)

theorem ring_contains : Contains ringHeap (fun i => i = 3 ∨ i = 4) 0 :=
  .down (c := 1) (by decide +kernel) (by decide +kernel) (by decide +kernel) (.down (c := 3) (by decide +kernel) (by decide +kernel) (by decide +kernel) (.here (Or.inl rfl)))

example (gz : Gzip) (sha : List Char → List Char) (N : Names) (E : Env) (crc : List Char → Nat) (d : Disk) : ∃ e, (loadLinks (linkEnv (diskEnv gz sha N E crc d 5)) false 201 ringHeap 3).2 = .error e :=
  C83_refused_partial ringHeap_tidy gz sha N E crc d 5 ring_circular (Or.inl rfl) 201
example (gz : Gzip) (sha : List Char → List Char) (N : Names) (E : Env) (crc : List Char → Nat) (d : Disk) {r : Res Bool} (hr : callLoadLinks (linkEnv (diskEnv gz sha N E crc d 5)) false 201 3000 ringHeap 0 = some r) : ∃ e, r.2 = .error e :=
  C83_call_partial ringHeap_tidy gz sha N E crc d 5 ring_circular ring_contains 201 3000 hr
/-- the exception is RecursionError here, with and without the walk over the items below -/
example : (loadLinks (linkEnv noFiles) false 201 ringHeap 3).2 = .error .recursion ∧ (loadLinks (linkEnv noFiles) false 201 ringHeap 3).1.kids 0 = [1, 2] ∧
    (callLoadLinks (linkEnv noFiles) false 201 3000 ringHeap 0).map (fun r => match r.2 with | .error _ => true | .ok _ => false) = some true := by decide +kernel

end ITree
