import Verif.Proofs.Frozen
import Verif.Props.Demo
import Verif.Props.DeepMut
/-
C21: a structure protected item keeps its children, whatever is called anywhere.
-/
namespace ITree

/-- the call takes flags away from item `p`: `p.unset_tree_read_only()`, `p.unset_value_read_only()` or an in-depth unset call that reaches `p` -/
def Unlocks (h : Heap) (p : Id) : AnyCall → Prop
  | .call (.unsetTreeReadOnly x) => x = p
  | .call (.unsetValueReadOnly x) => x = p
  | .more (.deepUnsetTreeReadOnly x f b) => p ∈ flagTargets h x f b
  | .more (.deepUnsetValueReadOnly x f b) => p ∈ flagTargets h x f b
  | _ => False

/-- no call of the history takes flags away from item `p` -/
def NeverUnlocks (ms : ModelSet) (p : Id) : Heap → List AnyCall → Prop
  | _, [] => True
  | h, a :: as => ¬ Unlocks h p a ∧ NeverUnlocks ms p (runActs ms h [a]) as

theorem runActs_cons (ms : ModelSet) (h : Heap) (a : AnyCall) (as : List AnyCall) : runActs ms h (a :: as) = runActs ms (runActs ms h [a]) as := by
  cases a <;> rfl

theorem Still.act (ms : ModelSet) {p : Id} {n : Node} {h : Heap} (S : Still p n h) (a : AnyCall) (hu : ¬ Unlocks h p a) : Still p n (runActs ms h [a]) := by
  cases a with
  | call c => exact S.step ms c (fun e => hu (by subst e; rfl)) (fun e => hu (by subst e; rfl))
  | more m => exact S.more m (fun x f b e hm => hu (by subst e; exact hm)) (fun x f b e hm => hu (by subst e; exact hm))

theorem Still.acts (ms : ModelSet) {p : Id} {n : Node} : ∀ (as : List AnyCall) {h : Heap}, Still p n h → NeverUnlocks ms p h as → Still p n (runActs ms h as)
  | [], _, S, _ => S
  | a :: as, h, S, H => by
    rw [runActs_cons]
    exact Still.acts ms as (S.act ms a H.1) H.2

/-- C21. In every state (reachable or not) and for every history of calls made on any items – on the protected item, its children, its ancestors, other trees, with any
arguments, failing or not – a structure protected item `p` has the same children in the same order, the same families and the same keys after the history, and is still protected, as long as no call takes flags away
from `p` itself. -/
theorem C21_frozen (ms : ModelSet) (h : Heap) (p : Id) (hp : p < h.next) (L : TreeLocked h p) (as : List AnyCall) (H : NeverUnlocks ms p h as) :
    (runActs ms h as).kids p = h.kids p ∧ (runActs ms h as).boundFams p = h.boundFams p ∧ TreeLocked (runActs ms h as) p := by
  have S : Still p (h.node p) h := ⟨hp, rfl, rfl, rfl, L⟩
  have S := Still.acts ms as S H
  exact ⟨S.items, by simp only [Heap.boundFams, S.fams, S.stale], S.lock⟩

/-- the tag of a child can be read off the families of its parent -/
theorem tag_of_fams {h : Heap} (C : Core h) {p c : Id} (hc : c ∈ h.kids p) (t : Tag) :
    h.tag c = t ↔ ∃ F l, (h.node p).fams = some F ∧ F.get? t = some l ∧ c ∈ l := by
  have hne : h.kids p ≠ [] := fun e => by rw [e] at hc; cases hc
  obtain ⟨F, hF, O⟩ := C.wf.fams_ok p hne
  constructor
  · intro e
    have hm : c ∈ famView h p t := List.mem_filter.2 ⟨hc, by simpa using e⟩
    have hv : famView h p t ≠ [] := fun e => by rw [e] at hm; cases hm
    exact ⟨F, famView h p t, hF, by rw [O.get, if_neg hv], hm⟩
  · rintro ⟨G, l, hG, hl, hm⟩
    rw [hF] at hG; cases hG
    rw [O.get] at hl
    split at hl
    · cases hl
    · cases hl
      simpa using (List.mem_filter.1 hm).2

/-- C21. If all items of a subtree are structure protected – as after `set_tree_read_only` (C23) – then after every history that takes flags away from none of them the subtree has the same items in the same order, each with the same
parent and, below its root, the same tag. -/
theorem C21_frozen_subtree {ms : ModelSet} {h : Heap} (R : Reach ms h) (p : Id) (hp : p < h.next) (L : ∀ y, Below h p y → TreeLocked h y) (as : List AnyCall)
    (H : ∀ y, Below h p y → NeverUnlocks ms y h as) (R' : Reach ms (runActs ms h as)) :
    (∀ y, Below (runActs ms h as) p y ↔ Below h p y) ∧ (∀ y, Below h p y → (runActs ms h as).kids y = h.kids y ∧ TreeLocked (runActs ms h as) y) ∧
    ∀ y, Below h p y → y ≠ p → (runActs ms h as).tag y = h.tag y ∧ (runActs ms h as).par y = h.par y := by
  have lt : ∀ y, Below h p y → y < h.next := fun y b => by
    cases b with
    | refl => exact hp
    | step _ hc => exact R.core.wf.kids_lt _ _ hc
  have St : ∀ y, Below h p y → Still y (h.node y) (runActs ms h as) := fun y b => Still.acts ms as ⟨lt y b, rfl, rfl, rfl, L y b⟩ (H y b)
  have K : ∀ y, Below h p y → (runActs ms h as).kids y = h.kids y := fun y b => (St y b).items
  generalize runActs ms h as = h' at St K R' ⊢
  refine ⟨fun y => ⟨fun b => ?_, fun b => ?_⟩, fun y b => ⟨K y b, (St y b).lock⟩, fun y b hne => ?_⟩
  · induction b with
    | refl => exact .refl
    | step _ hc ih => exact ih.step (by rwa [K _ ih] at hc)
  · induction b with
    | refl => exact .refl
    | step b hc ih => exact ih.step (by rwa [K _ b])
  · cases b with
    | refl => exact absurd rfl hne
    | @step q _ b hc =>
      have hc' : y ∈ h'.kids q := by rw [K q b]; exact hc
      refine ⟨?_, ?_⟩
      · rw [tag_of_fams R'.core hc', (St q b).fams]
        exact (tag_of_fams R.core hc _).1 rfl
      · obtain ⟨r, hr, e, _⟩ := R.core.wf.kid_parent q y hc
        obtain ⟨r', hr', e', _⟩ := R'.core.wf.kid_parent q y hc'
        simp only [Heap.par, hr, hr', Option.map_some, e, e']

/-- a history on the locked demo tree: most calls fail, some change other items or make new ones -/
def lockedActs : List AnyCall :=
  [.call (.append 0 (.val (.int 9))), .call (.new (.str "z") (.int 1) [.item 0] 0#6), .call (.rename 0 (.str "top")), .call (.rename 1 (.str "x")), .more (.deepReverse 9 0),
    .call (.copy 0), .call (.clear 0 false), .call (.append 1 (.item 6)), .call (.unsetTreeReadOnly 1), .more (.deepUnsetTreeReadOnly 4 none true), .call (.setValue 1 (.int 3))]

example : TreeLocked demoLocked 0 ∧ 0 < demoLocked.next ∧ NeverUnlocks ms0 0 demoLocked lockedActs ∧ demoLocked.kids 0 ≠ [] ∧
    (runActs ms0 demoLocked lockedActs).par 0 ≠ demoLocked.par 0 ∧ (runActs ms0 demoLocked lockedActs).tag 0 ≠ demoLocked.tag 0 := by
  refine ⟨⟨.inl (by decide), by decide⟩, by decide, ?_, by decide, by decide +kernel, by decide +kernel⟩
  simp only [NeverUnlocks, lockedActs, Unlocks, not_false_eq_true, true_and, and_true]
  decide +kernel

/-- the same tree through a history of allowed calls -/
def lockedActs2 : List AnyCall := [.call (.append 0 (.val (.int 9))), .call (.new (.str "z") (.int 1) [.item 0] 0#6), .more (.deepReverse 9 0), .more (.add 0 1), .call (.move 4 none)]

theorem locked_reach : Reach ms0 demoLocked := demo_tidy.reach.step (.setTreeReadOnly 0) trivial

theorem lockedActs2_reach : Reach ms0 (runActs ms0 demoLocked lockedActs2) :=
  ((((locked_reach.step (.append 0 (.val (.int 9))) ⟨by decide, fun _ e => by cases e⟩).step (.new (.str "z") (.int 1) [.item 0] 0#6) ⟨fun i hi => by simp at hi; subst hi; decide +kernel, by simp [Arg.isPlain]⟩).more (.deepReverse 9 0) trivial).more (.add 0 1) trivial).step
    (.move 4 none) ⟨1, by decide +kernel, by simp, by decide +kernel, by decide +kernel⟩

example : (∀ y, Below (runActs ms0 demoLocked lockedActs2) 0 y ↔ Below demoLocked 0 y) ∧ (runActs ms0 demoLocked lockedActs2).tag 4 = demoLocked.tag 4 ∧ Below demoLocked 0 4 := by
  have L : ∀ y, Below demoLocked 0 y → TreeLocked demoLocked y := below_of locked_reach.core (by simp only [TreeLocked]; decide +kernel)
  have b4 : Below demoLocked 0 4 := .step (.step .refl (by decide : 1 ∈ demoLocked.kids 0)) (by decide)
  have X := C21_frozen_subtree locked_reach 0 (by decide) L lockedActs2 (fun y _ => by simp [NeverUnlocks, lockedActs2, Unlocks]) lockedActs2_reach
  exact ⟨X.1, (X.2.2 4 b4 (by decide)).1, b4⟩

end ITree
