import Verif.Props.Frozen
/-
C22, C81: which calls can change the value, the tag and the flags of an item.
-/
namespace ITree

/-- no call of the history is one of `D` in the state in which it is made -/
def Never (ms : ModelSet) (D : Heap → AnyCall → Prop) : Heap → List AnyCall → Prop
  | _, [] => True
  | h, a :: as => ¬ D h a ∧ Never ms D (runActs ms h [a]) as

/-- an invariant kept by every single call outside `D` holds after every history outside `D` -/
theorem Never.keeps {ms : ModelSet} {D : Heap → AnyCall → Prop} {I : Heap → Prop} (H : ∀ h a, I h → ¬ D h a → I (runActs ms h [a])) :
    ∀ (as : List AnyCall) {h : Heap}, I h → Never ms D h as → I (runActs ms h as)
  | [], _, S, _ => S
  | a :: as, h, S, N => by
    rw [runActs_cons]
    exact Never.keeps H as (H h a S N.1) N.2

/-- `p.rename(…)` -/
def Renames (p : Id) : AnyCall → Prop
  | .call (.rename x _) => x = p
  | _ => False

/-- a call on `p` that sets or deletes its value: `p.set_value(…)`, `p.set_key_value(…)`, `p.del_value()`, `p.del_key_value(…)`, `p.clear()` with `keep_value=False` -/
def SetsValue (p : Id) : AnyCall → Prop
  | .call (.setValue x _) => x = p
  | .call (.setKeyValue x _ _) => x = p
  | .call (.delValue x) => x = p
  | .call (.delKeyValue x _) => x = p
  | .call (.clear x keep) => x = p ∧ keep = false
  | .more (.clearLocal x keep) => x = p ∧ keep = false
  | _ => False

/-- `p.clear(…)`, which also takes flags away -/
def Clears (p : Id) : AnyCall → Prop
  | .call (.clear x _) => x = p
  | .more (.clearLocal x _) => x = p
  | _ => False

section
variable {ms : ModelSet} {p : Id} {P : Node → Prop} {h : Heap}

/-- one call on an object whose invariant survives the calls that are not of kind `D` -/
theorem NodeHas.act (V : Frm (NodeHas p P) (fun _ => True)) (S : NodeHas p P h) (a : AnyCall)
    (hval : ∀ v n, SetsValue p a → (n.flags.has Flags.readOnlyValue = false) → P n → P { n with value := v })
    (htag : ∀ g n, Renames p a → P n → P { n with tag := g })
    (hclr : ∀ m n k, Clears p a → (k = false → SetsValue p a) → ClearLike k m n → P n → P m)
    (huns : ∀ (g : Flags → Flags) n, Unlocks h p a → P n → P { n with flags := g n.flags }) : NodeHas p P (runActs ms h [a]) := by
  cases a with
  | call c =>
    refine V.step ms S c ?_ ?_ ?_ ?_
    · intro x hx hr v
      refine S.modify fun e => ?_
      subst e
      refine hval v _ ?_ hr
      cases c <;> simp only [Call.writesValue, reduceCtorEq, Option.some.injEq] at hx <;> exact hx
    · rintro x g rfl h' S'
      exact S'.modify fun e => htag g _ e
    · rintro x k rfl _ h' f hf S'
      exact S'.modify fun e => hclr _ _ k e (fun hk => ⟨e, hk⟩) (hf _)
    · intro x hx h' g S'
      refine S'.modify fun e => ?_
      subst e
      refine huns g _ ?_
      cases c <;> simp only [Call.unsets, reduceCtorEq, Option.some.injEq] at hx <;> exact hx
  | more m =>
    refine V.more S m ?_ ?_
    · rintro x k rfl _ h' f hf S'
      exact S'.modify fun e => hclr _ _ k e (fun hk => ⟨e, hk⟩) (hf _)
    · intro x hx h' g S'
      refine S'.modify fun e => ?_
      subst e
      refine huns g _ ?_
      cases m <;> simp only [More.unsetTargets, List.not_mem_nil] at hx <;> exact hx
end

theorem Flags.has_or {g m f : Flags} (H : g.has f = true) : (g ||| m).has f = true := by
  simp only [Flags.has, bne_iff_ne, ne_eq] at H ⊢
  intro e
  apply H
  have e' : (g &&& f) ||| (m &&& f) = 0#6 := by rw [← e]; ext i; simp [Bool.and_or_distrib_right]
  exact (BitVec.or_eq_zero_iff.1 e').1

/-- C81. In every state and for every history of calls on any items, with any arguments, failing or not: an item has the same tag after the history unless it is renamed itself. -/
theorem C81_tag (ms : ModelSet) (h : Heap) (p : Id) (hp : p < h.next) (as : List AnyCall) (H : Never ms (fun _ => Renames p) h as) :
    (runActs ms h as).tag p = h.tag p := by
  refine (Never.keeps (I := NodeHas p fun n => n.tag = h.tag p) (fun h' a S hn => ?_) as ⟨hp, rfl⟩ H).2
  refine NodeHas.act (NodeHas.frm (fun n r e => e) (fun m n k e => k.tag.trans e) (fun n f _ e => e)) S a (fun v n _ _ e => e) (fun g n r _ => absurd r hn)
    (fun m n k _ _ c e => c.tag.trans e) fun g n _ e => e

/-- C81. The value stored in an item (a plain value or a value model with its value) changes only by a call on this item that sets or deletes its value. -/
theorem C81_value (ms : ModelSet) (h : Heap) (p : Id) (hp : p < h.next) (as : List AnyCall) (H : Never ms (fun _ => SetsValue p) h as) :
    ((runActs ms h as).node p).value = (h.node p).value := by
  refine (Never.keeps (I := NodeHas p fun n => n.value = (h.node p).value) (fun h' a S hn => ?_) as ⟨hp, rfl⟩ H).2
  refine NodeHas.act (NodeHas.frm (fun n r e => e) (fun m n k e => k.value.trans e) (fun n f _ e => e)) S a (fun v n r _ _ => absurd r hn) (fun g n _ e => e)
    (fun m n k _ s c e => (c.value ?_).trans e) fun g n _ e => e
  cases k
  · exact absurd (s rfl) hn
  · rfl

/-- C81. An item loses flags only by an unset call that reaches it or by its own `clear`; no call makes it a link root or replaces what it links to. -/
theorem C81_flags (ms : ModelSet) (h : Heap) (p : Id) (hp : p < h.next) (as : List AnyCall) (H : Never ms (fun h a => Unlocks h p a ∨ Clears p a) h as) :
    (∀ f : Flags, (h.flags p).has f = true → ((runActs ms h as).flags p).has f = true) ∧
    (runActs ms h as).isLinkRoot p = h.isLinkRoot p ∧ ((runActs ms h as).node p).link = (h.node p).link := by
  have S := (Never.keeps (I := NodeHas p fun n => n.link = (h.node p).link ∧ (h.flags p).Grow n.flags) (fun h' a S hn => ?_) as ⟨hp, rfl, .refl _⟩ H).2
  · obtain ⟨e, m, hm, hf'⟩ := S
    have hf : (runActs ms h as).flags p = h.flags p ||| m := hf'
    clear hf'
    refine ⟨fun f => ?_, ?_, e⟩
    · rw [hf]; exact Flags.has_or
    · unfold Heap.isLinkRoot; rw [hf]; revert hm; generalize h.flags p = g; clear hf; revert g m; decide +kernel
  · refine NodeHas.act (NodeHas.frm (fun n r e => e) (fun m n k e => ⟨k.link.trans e.1, k.flags ▸ e.2⟩) (fun n f hf e => ⟨e.1, ?_⟩)) S a (fun v n _ _ e => e) (fun g n _ e => e)
      (fun m n k c => absurd (.inr c) hn) fun g n u => absurd (.inl u) hn
    obtain ⟨m, hm, ef⟩ := e.2
    refine ⟨m ||| f, ?_, by rw [ef, BitVec.or_assoc]⟩
    revert hm hf; clear ef; revert m f; decide +kernel

/-- C22. The value of an item whose value is read-only is the same after every history of calls on any items – also `set_value`, `set_key_value`, `del_value` and `del_key_value` on the item itself – as long as no unset call reaches
the item and it is not cleared, and it is still read-only. -/
theorem C22_frozen (ms : ModelSet) (h : Heap) (p : Id) (hp : p < h.next) (L : (h.flags p).has Flags.readOnlyValue = true) (as : List AnyCall) (H : Never ms (fun h a => Unlocks h p a ∨ Clears p a) h as) :
    ((runActs ms h as).node p).value = (h.node p).value ∧ ((runActs ms h as).flags p).has Flags.readOnlyValue = true := by
  refine (Never.keeps (I := NodeHas p fun n => n.value = (h.node p).value ∧ n.flags.has Flags.readOnlyValue = true) (fun h' a S hn => ?_) as ⟨hp, rfl, L⟩ H).2
  refine NodeHas.act (NodeHas.frm (fun n r e => e) (fun m n k e => ⟨k.value.trans e.1, k.flags ▸ e.2⟩) (fun n f hf e => ⟨e.1, ?_⟩)) S a (fun v n _ hr e => by rw [e.2] at hr; cases hr) (fun g n _ e => e)
    (fun m n k c => absurd (.inr c) hn) fun g n u => absurd (.inl u) hn
  exact Flags.has_or e.2

/-- a history on the demo tree that renames other items, moves item 4, sets values of other items, copies, protects, and calls value setters on the protected item 4, which fail -/
def ownActs : List AnyCall :=
  [.call (.setValueReadOnly 4), .call (.rename 1 (.str "x")), .call (.setValue 1 (.int 3)), .call (.copy 0), .more (.deepReverse 9 0), .call (.move 4 none), .call (.setValue 4 (.int 77)),
    .call (.delValue 4), .call (.clear 4 true), .call (.append 4 (.val (.int 9))), .more (.deepUnsetValueReadOnly 2 none true)]

example : Never ms0 (fun _ => Renames 4) demo ownActs ∧ 4 < demo.next ∧ (runActs ms0 demo ownActs).tag 1 ≠ demo.tag 1 := by
  refine ⟨by simp [Never, ownActs, Renames], by decide, by decide +kernel⟩

/-- the tag and the value of item 4 stay, those of item 1 change, item 4 is protected and gets a child -/
def ownActs2 : List AnyCall :=
  [.call (.setValueReadOnly 4), .call (.rename 1 (.str "x")), .call (.setValue 1 (.int 3)), .call (.copy 0), .more (.deepReverse 9 0), .call (.append 4 (.val (.int 9))), .call (.rename 4 (.str "y"))]

example : Never ms0 (fun _ => SetsValue 4) demo ownActs2 ∧ Never ms0 (fun h a => Unlocks h 4 a ∨ Clears 4 a) demo ownActs2 ∧ 4 < demo.next ∧
    (runActs ms0 demo ownActs2).tag 4 ≠ demo.tag 4 ∧ (runActs ms0 demo ownActs2).kids 4 ≠ demo.kids 4 ∧ ((runActs ms0 demo ownActs2).flags 4) ≠ demo.flags 4 := by
  refine ⟨by simp [Never, ownActs2, SetsValue], by simp [Never, ownActs2, Unlocks, Clears], by decide, by decide +kernel, by decide +kernel, by decide +kernel⟩

/-- item 4 with a read-only value; all four value calls on it, its parent cleared -/
def demoHeld : Heap := (setValueReadOnly demo 4).1
def heldActs : List AnyCall :=
  [.call (.setValue 4 (.int 77)), .call (.setKeyValue 4 (.int 1) (.int 2)), .call (.delValue 4), .call (.delKeyValue 4 (.int 1)), .call (.clear 1 false), .call (.rename 4 (.str "y")), .call (.append 0 (.item 4))]

example : (demoHeld.flags 4).has Flags.readOnlyValue = true ∧ Never ms0 (fun h a => Unlocks h 4 a ∨ Clears 4 a) demoHeld heldActs ∧ 4 < demoHeld.next ∧ (getValue demoHeld 4).isNoValue = false ∧
    (runActs ms0 demoHeld heldActs).kids 1 ≠ demoHeld.kids 1 := by
  refine ⟨by decide, by simp [Never, heldActs, Unlocks, Clears], by decide, ?_, by decide +kernel⟩
  decide +kernel

/-- the exception for `clear` is needed: `clear` deletes a read-only value without an error -/
theorem C22_clear_wrong : ∃ (h : Heap) (p : Id), Reach ms0 h ∧ isValueReadOnly h p = true ∧ (step ms0 h (.clear p false)).2.isOk = true ∧ (getValue h p).isNoValue = false ∧
    (getValue (step ms0 h (.clear p false)).1 p).isNoValue = true := by
  refine ⟨demoHeld, 4, demo_tidy.reach.step (.setValueReadOnly 4) trivial, by decide, by decide +kernel, by decide +kernel, by decide +kernel⟩

end ITree
