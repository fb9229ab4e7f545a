import Verif.Proofs.Frame
/-
A protected item keeps its children through every call made anywhere (helper lemmas for Props/Frozen).
-/
namespace ITree

/-- item `p` exists, is structure protected and its list of children and its families are those of `n` -/
structure Still (p : Id) (n : Node) (h : Heap) : Prop where
  lt : p < h.next
  items : (h.node p).items = n.items
  fams : (h.node p).fams = n.fams
  stale : (h.node p).stale = n.stale
  lock : TreeLocked h p

section
variable {p : Id} {n : Node} {h : Heap}

theorem Flags.Grow.refl (f : Flags) : f.Grow f := ⟨0#6, by decide, by simp⟩

theorem TreeLocked.grow {f g : Flags} (G : f.Grow g) (L : (f.has Flags.readOnlyTree ∨ f.has Flags.linked ∨ f.has Flags.placeholder) ∧ f.has Flags.linkRoot = false) :
    (g.has Flags.readOnlyTree ∨ g.has Flags.linked ∨ g.has Flags.placeholder) ∧ g.has Flags.linkRoot = false := by
  obtain ⟨m, hm, rfl⟩ := G
  revert f m
  decide +kernel

theorem Still.modify (S : Still p n h) {q : Id} {f : Node → Node} (hi : (f (h.node q)).items = (h.node q).items) (hf : (f (h.node q)).fams = (h.node q).fams)
    (hs : (f (h.node q)).stale = (h.node q).stale) (hl : (h.flags q).Grow (f (h.node q)).flags) : Still p n (h.modify q f) := by
  by_cases e : p = q
  · subst e
    refine ⟨S.lt, ?_, ?_, ?_, ?_⟩
    · simpa [Heap.modify, hi] using S.items
    · simpa [Heap.modify, hf] using S.fams
    · simpa [Heap.modify, hs] using S.stale
    · have e : (h.modify p f).flags p = (f (h.node p)).flags := by simp [Heap.modify, Heap.flags]
      unfold TreeLocked
      rw [e]
      exact TreeLocked.grow hl S.lock
  · have e' : (h.modify q f).node p = h.node p := by simp [Heap.modify, e]
    exact ⟨S.lt, by rw [e']; exact S.items, by rw [e']; exact S.fams, by rw [e']; exact S.stale, by simpa only [TreeLocked, Heap.flags, e'] using S.lock⟩

theorem Still.other (S : Still p n h) {q : Id} {f : Node → Node} (hq : q ≠ p) : Still p n (h.modify q f) := by
  have e' : (h.modify q f).node p = h.node p := by simp only [Heap.modify]; exact if_neg fun e => hq e.symm
  exact ⟨S.lt, by rw [e']; exact S.items, by rw [e']; exact S.fams, by rw [e']; exact S.stale, by simpa only [TreeLocked, Heap.flags, e'] using S.lock⟩

theorem Still.alloc (S : Still p n h) (m : Node) : Still p n (h.alloc m).1 ∧ (h.alloc m).2 ≠ p := by
  have hne : h.next ≠ p := fun e => by have := S.lt; omega
  have e' : (h.alloc m).1.node p = h.node p := by simp only [Heap.alloc]; exact if_neg fun e => hne e.symm
  exact ⟨⟨Nat.lt_succ_of_lt S.lt, by rw [e']; exact S.items, by rw [e']; exact S.fams, by rw [e']; exact S.stale, by simpa only [TreeLocked, Heap.flags, e'] using S.lock⟩, hne⟩

/-- the frame of the invariant: everything but the children of `p` -/
theorem Still.frm : Frm (Still p n) (· ≠ p) where
  parent S := S.modify rfl rfl rfl (.refl _)
  kids S hq _ := S.other hq
  alloc' m S := S.alloc m
  grow hf S := S.modify rfl rfl rfl ⟨_, hf, rfl⟩
  new S0 S hq := S.other fun e => by have := S0.lt; omega
  locked S hq := by rw [not_not.1 hq]; exact S.lock

/-- no `unset_…` call on `p` itself -/
theorem Still.step (ms : ModelSet) (S : Still p n h) (c : Call) (h1 : c ≠ .unsetTreeReadOnly p) (h2 : c ≠ .unsetValueReadOnly p) : Still p n (ITree.step ms h c).1 := by
  refine Still.frm.step ms S c (fun x _ _ v => S.modify rfl rfl rfl (.refl _)) (fun x g _ h S => S.modify rfl rfl rfl (.refl _)) (fun x k _ hx h f _ S => S.other hx) fun x hx h g S => S.other ?_
  rintro rfl
  cases c <;> simp only [Call.unsets, reduceCtorEq, Option.some.injEq] at hx
  · subst hx; exact h1 rfl
  · subst hx; exact h2 rfl

theorem Still.more (S : Still p n h) (m : More)
    (h1 : ∀ x f b, m = .deepUnsetTreeReadOnly x f b → p ∉ flagTargets h x f b) (h2 : ∀ x f b, m = .deepUnsetValueReadOnly x f b → p ∉ flagTargets h x f b) : Still p n (ITree.more h m) := by
  refine Still.frm.more S m (fun x k _ hx h f _ S' => S'.other ?_) fun x hx h g S => S.other ?_
  · rintro rfl
    rcases hx with hx | hx
    · exact hx rfl
    · have := S.lock.2
      simp_all [Heap.isLinkRoot]
  · rintro rfl
    cases m <;> simp only [More.unsetTargets, List.not_mem_nil] at hx
    · exact h1 _ _ _ rfl hx
    · exact h2 _ _ _ rfl hx

end

end ITree
