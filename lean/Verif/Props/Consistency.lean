import Verif.Props.Demo
/-
C01, C02, C25: what holds after every history of allowed calls (`Spec/History.lean`).
-/
namespace ITree

theorem getItem_tag_view {h : Heap} (W : WF h) (p : Id) (g : Tag) :
    getItem h p (.tag g) = (if (h.kids p).filter (fun c => h.tag c = g) = [] then .error .key
      else .ok (.many ((h.kids p).filter fun c => h.tag c = g))) := by
  show getItem h p (.tag g) = (if famView h p g = [] then .error .key else .ok (.many (famView h p g)))
  simp only [getItem]
  by_cases hk : h.kids p = []
  · simp [hk, famView]
  · obtain ⟨F, hb, hf, hO⟩ := W.bound hk
    simp only [if_neg hk, getItem1, hb, Option.getD_some, hO.get g]
    by_cases he : famView h p g = []
    · simp [he]
    · simp [he]

/-- C01. After any history of allowed calls `t[g]` (for a tag `g`) delivers exactly the children carrying the tag, in item order; a tag without
children is not found. -/
theorem C01_family_view_partial {ms : ModelSet} {h : Heap} (R : Reach ms h) (p : Id) (g : Tag) :
    getItem h p (.tag g) = (if (h.kids p).filter (fun c => h.tag c = g) = [] then .error .key
      else .ok (.many ((h.kids p).filter fun c => h.tag c = g))) := getItem_tag_view R.core.wf p g

example : getItem demo 0 (.tag (.other 1)) = .ok (.many [1, 3]) := by
  rw [C01_family_view_partial demo_tidy.reach]; rfl

/-- C01, keys: `t[(g, i)]` delivers the i-th (Python indexing) of these children. -/
theorem C01_family_key_partial {ms : ModelSet} {h : Heap} (R : Reach ms h) (p : Id) (g : Tag) (i : Int) (c : Id)
    (hc : pyGet ((h.kids p).filter fun c => h.tag c = g) i = some c) : getItem h p (.key g (.int i)) = .ok (.one c) := by
  have W := R.core.wf
  have hk : h.kids p ≠ [] := by
    intro e; rw [e] at hc
    have := pyGet_mem hc
    simp at this
  obtain ⟨F, hb, hf, hO⟩ := W.bound hk
  have hne : famView h p g ≠ [] := by
    intro e
    have hc : pyGet (famView h p g) i = some c := hc
    have := pyGet_mem hc
    rw [e] at this; simp at this
  have hget := hO.get g
  rw [if_neg hne] at hget
  have hc : pyGet (famView h p g) i = some c := hc
  simp only [getItem, if_neg hk, getItem1, hb, Option.getD_some, getKey, hget, hc]

example : getItem demo 0 (.key (.other 1) (.int (-1))) = .ok (.one 3) := C01_family_key_partial demo_tidy.reach _ _ _ _ (by decide)

/-- C02. After any history of allowed calls every child names its parent; iterating delivers nothing twice; nothing is a child of two parents. -/
theorem C02_parent_child_partial {ms : ModelSet} {h : Heap} (R : Reach ms h) :
    (∀ p c, c ∈ h.kids p → h.par c = some p) ∧ (∀ p, (h.kids p).Nodup) ∧ (∀ p q c, c ∈ h.kids p → c ∈ h.kids q → p = q) := by
  have W := R.core.wf
  refine ⟨fun p c hc => par_child W hc, W.kids_nodup, fun p q c hp hq => ?_⟩
  have := par_child W hp
  rw [par_child W hq] at this
  simpa using this.symm

/-- C02, both directions, for histories without `sort` and `clear`: `c` is delivered by iterating `p` exactly when `c.parent` is `p`. -/
theorem C02_parent_iff_partial {ms : ModelSet} {h : Heap} (R : Tidy ms h) (p c : Id) : c ∈ h.kids p ↔ h.par c = some p :=
  ⟨fun hc => par_child R.inv.1.wf hc, fun hc => R.inv.2 c p hc⟩

example : (4 ∈ demo.kids 1) ∧ demo.par 4 = some 1 := ⟨(C02_parent_iff_partial demo_tidy 1 4).2 (by decide), by decide⟩

/-- C25. After any history of allowed calls no item is below one of its own children: there are no cycles … -/
theorem C25_no_cycle_partial {ms : ModelSet} {h : Heap} (R : Reach ms h) (p c : Id) (hc : c ∈ h.kids p) : ¬ Below h c p := R.core.forest.irrefl hc

/-- … and every descent into children and every ascent to parents ends: the parent chain of a child ends at an item without parent or at an
item that is no longer a child of the parent it names. -/
theorem C25_descent_ends_partial {ms : ModelSet} {h : Heap} (R : Reach ms h) : ¬ ∃ f : Nat → Id, ∀ n, f (n + 1) ∈ h.kids (f n) := by
  rintro ⟨f, hf⟩
  have key : ∀ x, ∀ n, f n ≠ x := by
    intro x
    induction x using R.core.forest.induction with
    | _ x ih => rintro n rfl; exact ih (f (n + 1)) (hf n) (n + 1) rfl
  exact key _ 0 rfl

theorem below_trans {h : Heap} {a b c : Id} (h1 : Below h a b) (h2 : Below h b c) : Below h a c := by
  induction h2 with
  | refl => exact h1
  | step _ hc ih => exact ih.step hc

theorem C25_ancestor_below {ms : ModelSet} {h : Heap} (R : Tidy ms h) : ∀ (k : Nat) (x a : Id), ancestor h k x = some a → Below h a x := by
  intro k
  induction k with
  | zero => intro x a e; simp [ancestor] at e; subst e; exact Below.refl
  | succ k ih =>
    intro x a e
    simp only [ancestor] at e
    cases hp : h.par x with
    | none => rw [hp] at e; simp at e
    | some p =>
      rw [hp] at e
      exact (ih p a e).step ((C02_parent_iff_partial R p x).2 hp)

/-- C25. No item is its own (proper) ancestor. -/
theorem C25_no_own_ancestor_partial {ms : ModelSet} {h : Heap} (R : Tidy ms h) (x : Id) (k : Nat) : ancestor h (k + 1) x ≠ some x := by
  intro e
  simp only [ancestor] at e
  cases hp : h.par x with
  | none => rw [hp] at e; simp at e
  | some p =>
    rw [hp] at e
    have hb := C25_ancestor_below R k p x e
    exact C25_no_cycle_partial R.reach p x ((C02_parent_iff_partial R p x).2 hp) hb

example : ancestor demo 2 4 = some 0 := by decide

/-- a history with in-depth calls, arithmetic, an evaluation and list removal: reverse everything below 0, add 0 and its copy, build an item with a child from a text, remove two children, reverse again -/
def mixed : Heap := more (more (more (more (more demo (.deepReverse 5 0)) (.add 0 1)) (.build (.node (.other 7) .noValue 0#6 none [.node (.other 8) (.int 1) 0#6 none []]))) (.removeMany 0 [3, 1])) (.deepRemove 0 (.int 0) [])

theorem mixed_tidy : Tidy ms0 mixed :=
  (((((demo_tidy.more (.deepReverse 5 0) trivial rfl).more (.add 0 1) trivial rfl).more (.build _) (by simp [MoreOK, Shape.Quiet, Shape.QuietL]) rfl).more (.removeMany 0 [3, 1]) trivial rfl).more
    (.deepRemove 0 (.int 0) []) trivial rfl)

example : (demo.kids 0, mixed.kids 0, mixed.kids 1, mixed.par 3, mixed.par 1) = ([1, 2, 3, 5], [2], [4], none, none) := by decide +kernel
example : mixed.next = 16 ∧ mixed.kids 13 = [7, 8, 9, 10, 12] ∧ mixed.kids 15 = [14] := by decide +kernel
example : getItem mixed 0 (.tag (.other 2)) = .ok (.many [2]) := by
  rw [C01_family_view_partial mixed_tidy.reach]; decide +kernel

end ITree
