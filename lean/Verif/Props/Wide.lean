import Verif.Proofs.Wide
import Verif.Props.Owner
import Verif.Props.Files
import Verif.Props.Subtract
import Verif.Props.StoredLinks
/-
C21, C22, C81: protected items and the tag, value and flags of items through histories of all calls that write items – also `load_links`, `make_local`, subtraction, assignment of lists and loading files.
-/
namespace ITree

/-- no call of the history is one of `D` in the state in which it is made -/
def NeverWide (W : Surround) (D : Heap → AnyCall → Prop) : Heap → List Wide → Prop
  | _, [] => True
  | h, a :: as => (∀ b, a = .act b → ¬ D h b) ∧ ∀ h', wideStep W h a = some h' → NeverWide W D h' as

section
variable {W : Surround} {D : Heap → AnyCall → Prop} {I : Heap → Prop} {Ok : Id → Prop}

/-- an invariant kept by every call of Model/Step and Model/More outside `D` and that is a frame for the other calls holds after every history outside `D` -/
theorem NeverWide.keeps (V : Frm I Ok) (L : AnyLinks I) (H : ∀ h a, I h → ¬ D h a → I (runActs W.ms h [a])) :
    ∀ (as : List Wide) {h h' : Heap}, I h → NeverWide W D h as → runWide W h as = some h' → I h'
  | [], h, h', S, _, e => by simp only [runWide, Option.some.injEq] at e; subst e; exact S
  | a :: as, h, h', S, N, e => by
    unfold runWide at e
    split at e
    · cases e
    · next h1 h1e =>
      refine NeverWide.keeps V L H as ?_ (N.2 h1 h1e) e
      cases a with
      | act b => simp only [wideStep, Option.some.injEq] at h1e; subst h1e; exact H h b S (N.1 b rfl)
      | _ => exact V.wide L S (fun b e => by cases e) h1e

theorem NodeHas.anyLinks {p : Id} {P : Node → Prop} (hP : ∀ n l, P n → P { n with link := l }) : AnyLinks (NodeHas p P) := fun g S => S.modify fun _ => hP _ _

theorem Still.anyLinks {p : Id} {n : Node} : AnyLinks (Still p n) := fun g S => S.modify rfl rfl rfl (.refl _)
end

/-- C81. In every state and for every history of calls on any items – also `load_links` (of links into the own tree or to files, with or without `delete_invalid_items`), `make_local`, subtraction, assignment of lists,
`extend` with lists, loading texts and files –, with any arguments, failing or not: an item has the same tag after the history unless it is renamed itself. -/
theorem C81_wide_tag (W : Surround) (h h' : Heap) (p : Id) (hp : p < h.next) (as : List Wide) (H : NeverWide W (fun _ => Renames p) h as) (e : runWide W h as = some h') : h'.tag p = h.tag p := by
  have V : Frm (NodeHas p fun n => n.tag = h.tag p) (fun _ => True) := NodeHas.frm (fun n r e => e) (fun m n k e => k.tag.trans e) (fun n f _ e => e)
  exact (NeverWide.keeps V (NodeHas.anyLinks fun n l e => e)
    (fun h' a S hn => NodeHas.act V S a (fun v n _ _ e => e) (fun g n r _ => absurd r hn) (fun m n k _ _ c e => c.tag.trans e) fun g n _ e => e) as ⟨hp, rfl⟩ H e).2

/-- C81. The value stored in an item changes only by a call on this item that sets or deletes its value, in every such history. -/
theorem C81_wide_value (W : Surround) (h h' : Heap) (p : Id) (hp : p < h.next) (as : List Wide) (H : NeverWide W (fun _ => SetsValue p) h as) (e : runWide W h as = some h') :
    (h'.node p).value = (h.node p).value := by
  have V : Frm (NodeHas p fun n => n.value = (h.node p).value) (fun _ => True) := NodeHas.frm (fun n r e => e) (fun m n k e => k.value.trans e) (fun n f _ e => e)
  refine (NeverWide.keeps V (NodeHas.anyLinks fun n l e => e)
    (fun h' a S hn => NodeHas.act V S a (fun v n r _ _ => absurd r hn) (fun g n _ e => e) (fun m n k _ s c e => (c.value ?_).trans e) fun g n _ e => e) as ⟨hp, rfl⟩ H e).2
  cases k
  · exact absurd (s rfl) hn
  · rfl

/-- C81. An item loses flags only by an unset call that reaches it or by its own `clear`, and no call makes an existing item a link root or turns a link root into something else, in every such history. -/
theorem C81_wide_flags (W : Surround) (h h' : Heap) (p : Id) (hp : p < h.next) (as : List Wide) (H : NeverWide W (fun h a => Unlocks h p a ∨ Clears p a) h as) (e : runWide W h as = some h') :
    (∀ f : Flags, (h.flags p).has f = true → (h'.flags p).has f = true) ∧ h'.isLinkRoot p = h.isLinkRoot p := by
  have V : Frm (NodeHas p fun n => (h.flags p).Grow n.flags) (fun _ => True) := by
    refine NodeHas.frm (fun n r e => e) (fun m n k e => k.flags ▸ e) (fun n f hf e => ?_)
    obtain ⟨m, hm, ef⟩ := e
    refine ⟨m ||| f, ?_, by rw [ef, BitVec.or_assoc]⟩
    revert hm hf; clear ef; revert m f; decide +kernel
  have S := (NeverWide.keeps V (NodeHas.anyLinks fun n l e => e)
    (fun h' a S hn => NodeHas.act V S a (fun v n _ _ e => e) (fun g n _ e => e) (fun m n k c => absurd (.inr c) hn) fun g n u => absurd (.inl u) hn) as ⟨hp, .refl _⟩ H e).2
  obtain ⟨m, hm, hf'⟩ := S
  have hf : h'.flags p = h.flags p ||| m := hf'
  clear hf'
  refine ⟨fun f => ?_, ?_⟩
  · rw [hf]; exact Flags.has_or
  · unfold Heap.isLinkRoot; rw [hf]; revert hm; generalize h.flags p = g; clear hf; revert g m; decide +kernel

/-- C22. The value of an item whose value is read-only stays through every such history as long as no unset call reaches the item and it is not cleared. -/
theorem C22_wide_frozen (W : Surround) (h h' : Heap) (p : Id) (hp : p < h.next) (L : (h.flags p).has Flags.readOnlyValue = true) (as : List Wide)
    (H : NeverWide W (fun h a => Unlocks h p a ∨ Clears p a) h as) (e : runWide W h as = some h') :
    (h'.node p).value = (h.node p).value ∧ (h'.flags p).has Flags.readOnlyValue = true := by
  have V : Frm (NodeHas p fun n => n.value = (h.node p).value ∧ n.flags.has Flags.readOnlyValue = true) (fun _ => True) :=
    NodeHas.frm (fun n r e => e) (fun m n k e => ⟨k.value.trans e.1, k.flags ▸ e.2⟩) (fun n f hf e => ⟨e.1, Flags.has_or e.2⟩)
  exact (NeverWide.keeps V (NodeHas.anyLinks fun n l e => e)
    (fun h' a S hn => NodeHas.act V S a (fun v n _ hr e => by rw [e.2] at hr; cases hr) (fun g n _ e => e) (fun m n k c => absurd (.inr c) hn) fun g n u => absurd (.inl u) hn) as ⟨hp, rfl, L⟩ H e).2

/-- C21. A structure protected item has the same children in the same order, the same families and the same keys after every such history, and is still protected, as long as no call takes flags away from it. -/
theorem C21_wide_frozen (W : Surround) (h h' : Heap) (p : Id) (hp : p < h.next) (L : TreeLocked h p) (as : List Wide) (H : NeverWide W (fun h => Unlocks h p) h as) (e : runWide W h as = some h') :
    h'.kids p = h.kids p ∧ h'.boundFams p = h.boundFams p ∧ TreeLocked h' p := by
  have S : Still p (h.node p) h' := NeverWide.keeps Still.frm Still.anyLinks (fun h' a S hn => S.act W.ms a hn) as ⟨hp, rfl, rfl, rfl, L⟩ H e
  exact ⟨S.items, by simp only [Heap.boundFams, S.fams, S.stale], S.lock⟩

/-! ### a history with all kinds of calls -/

def w0 : Surround := ⟨ms0, SubOps.libS (fun t _ => t) (fun v _ => v), gz0, fun t => t, stdNames, envJ, List.length⟩

/-- an empty disk -/
def noDisk : Disk := ⟨fun _ => none, fun _ => false⟩

/-- the source 1 of the link root 5 is protected; the link is loaded, a linked item made local and changed, a list assigned, another one extended, trees subtracted, a text and a missing file loaded, the link loaded again -/
def wideActs : List Wide :=
  [.act (.call (.setTreeReadOnly 1)), .loadLinks noDisk 40 0 false false, .makeLocal 6 true, .act (.call (.setValue 9 (.int 50))), .act (.call (.append 5 (.val (.int 9)))), .act (.call (.append 1 (.val (.int 9)))),
    .extendLists 0 [.node (.str "n") (.int 4) 0#6 none []], .setList 0 (.int 0) [.val (.int 3)], .sub 5 1, .loads "[]".toList false, .load noDisk "f" true, .loadLinks noDisk 40 5 true true, .act (.call (.rename 5 (.str "M")))]

/-- a history without calls of kind `D`, if `D` does not look at the state -/
theorem NeverWide.of {W : Surround} {D : AnyCall → Prop} : ∀ (as : List Wide) (h : Heap), (∀ b, Wide.act b ∈ as → ¬ D b) → NeverWide W (fun _ => D) h as
  | [], _, _ => trivial
  | a :: as, h, H => ⟨fun b e => H b (by rw [e]; exact List.mem_cons_self ..), fun h' _ => NeverWide.of as h' fun b hb => H b (List.mem_cons_of_mem _ hb)⟩

/-- item 1, the source, keeps tag and value while the link root 5 is loaded, gets a local child and is removed as its source is gone -/
example : ∃ h', runWide w0 srcDemo wideActs = some h' ∧ NeverWide w0 (fun _ => Renames 1) srcDemo wideActs ∧ NeverWide w0 (fun _ => SetsValue 1) srcDemo wideActs ∧ 1 < srcDemo.next ∧
    h'.kids 5 = [9, 7, 8, 10] ∧ srcDemo.kids 5 = [] ∧ h'.kids 0 = [12, 11] ∧ h'.tag 5 ≠ srcDemo.tag 5 := by
  obtain ⟨h', e⟩ : ∃ h', runWide w0 srcDemo wideActs = some h' := Option.isSome_iff_exists.1 (by decide +kernel)
  have K : (runWide w0 srcDemo wideActs).map (fun h => (h.kids 5, h.kids 0, h.tag 5)) = some ([9, 7, 8, 10], [12, 11], .str "M") := by decide +kernel
  rw [e, Option.map_some, Option.some.injEq, Prod.mk.injEq, Prod.mk.injEq] at K
  refine ⟨h', e, .of _ _ fun b hb => ?_, .of _ _ fun b hb => ?_, by decide, K.1, by decide +kernel, K.2.1, ?_⟩
  · simp only [wideActs, List.mem_cons, Wide.act.injEq, reduceCtorEq, List.not_mem_nil, or_false, false_or] at hb
    rcases hb with rfl | rfl | rfl | rfl | rfl <;> simp [Renames]
  · simp only [wideActs, List.mem_cons, Wide.act.injEq, reduceCtorEq, List.not_mem_nil, or_false, false_or] at hb
    rcases hb with rfl | rfl | rfl | rfl | rfl <;> simp [SetsValue]
  · rw [K.2.2]; decide +kernel

/-- … and its children: it is structure protected from the first call on -/
example : ∃ h h', wideStep w0 srcDemo (.act (.call (.setTreeReadOnly 1))) = some h ∧ TreeLocked h 1 ∧ (h.flags 1).has Flags.readOnlyTree = true ∧ 1 < h.next ∧ runWide w0 h wideActs.tail = some h' ∧
    NeverWide w0 (fun h a => Unlocks h 1 a ∨ Clears 1 a) h wideActs.tail ∧ NeverWide w0 (fun h => Unlocks h 1) h wideActs.tail ∧ h.kids 1 = [2, 3, 4] := by
  have F : ∀ (D : Heap → AnyCall → Prop), (∀ h a, D h a → Unlocks h 1 a ∨ Clears 1 a) → ∀ (as : List Wide) (h : Heap),
      (∀ b, Wide.act b ∈ as → b ∈ [.call (.setValue 9 (.int 50)), .call (.append 5 (.val (.int 9))), .call (.append 1 (.val (.int 9))), .call (.rename 5 (.str "M"))]) → NeverWide w0 D h as := by
    intro D HD as
    induction as with
    | nil => intro h _; trivial
    | cons a as ih =>
      intro h H
      refine ⟨fun b e d => ?_, fun h' _ => ih h' fun b hb => H b (List.mem_cons_of_mem _ hb)⟩
      have hb := H b (by rw [e]; exact List.mem_cons_self ..)
      have d := HD h b d
      simp only [List.mem_cons, List.not_mem_nil, or_false] at hb
      rcases hb with rfl | rfl | rfl | rfl <;> simp [Unlocks, Clears] at d
  have T : ∀ b, Wide.act b ∈ wideActs.tail → b ∈ [AnyCall.call (.setValue 9 (.int 50)), .call (.append 5 (.val (.int 9))), .call (.append 1 (.val (.int 9))), .call (.rename 5 (.str "M"))] := by
    intro b hb
    simp only [wideActs, List.tail_cons, List.mem_cons, Wide.act.injEq, reduceCtorEq, List.not_mem_nil, or_false, false_or] at hb
    simp only [List.mem_cons, List.not_mem_nil, or_false]
    exact hb
  obtain ⟨h', e⟩ : ∃ h', runWide w0 (setTreeReadOnly srcDemo 1).1 wideActs.tail = some h' := Option.isSome_iff_exists.1 (by decide +kernel)
  exact ⟨(setTreeReadOnly srcDemo 1).1, h', rfl, ⟨.inl (by decide +kernel), by decide +kernel⟩, by decide +kernel, by decide +kernel, e, F _ (fun _ _ d => d) _ _ T, F _ (fun _ _ d => .inl d) _ _ T, by decide +kernel⟩

/-- item 3 with a read-only value, the value calls on it fail -/
example : ((setValueReadOnly srcDemo 3).1.flags 3).has Flags.readOnlyValue = true ∧ 3 < (setValueReadOnly srcDemo 3).1.next ∧
    (∃ h', runWide w0 (setValueReadOnly srcDemo 3).1 [.loadLinks noDisk 40 0 false false, .act (.call (.setValue 3 (.int 50))), .makeLocal 6 true, .sub 5 1] = some h') ∧
    NeverWide w0 (fun h a => Unlocks h 3 a ∨ Clears 3 a) (setValueReadOnly srcDemo 3).1 [.loadLinks noDisk 40 0 false false, .act (.call (.setValue 3 (.int 50))), .makeLocal 6 true, .sub 5 1] := by
  refine ⟨by decide +kernel, by decide +kernel, Option.isSome_iff_exists.1 (by decide +kernel), ?_⟩
  simp [NeverWide, Unlocks, Clears]

end ITree
