import Verif.Proofs.Links
import Verif.Model.Deep
import Verif.Props.Protect
/-
C46: linked items.
-/
namespace ITree

/-- the source of the examples: `X(P(Q), R)` -/
def linkSrc (flags : Flags) : Tree := .node 1 (.str "X") (.int 0) flags none [.node 2 (.str "P") (.int 1) 0 none [.node 3 (.str "Q") (.int 2) 0 none []], .node 4 (.str "R") (.int 3) 0 none []]

/-- a source in which only the last sibling has children: `X(R, P(Q))` -/
def linkSrc2 : Tree := .node 1 (.str "X") (.int 0) 0 none [.node 4 (.str "R") (.int 3) 0 none [], .node 2 (.str "P") (.int 1) 0 none [.node 3 (.str "Q") (.int 2) 0 none []]]

/-- C46. Converting a source item always ends, and the linked tree has the tags and values of the source in the same deep order, every item marked as linked.
(Missing: the structure, see the next theorems.) -/
theorem C46_items_partial (T : Tree) (hl : T.flags.has Flags.linked = false) : ∃ U, (∃ N, ∀ n, N ≤ n → convert n T = some [U]) ∧
    U.pre.map (fun x => (x.id, x.tag, x.value, x.flags)) = T.pre.map fun x => (x.id, x.tag, x.value, x.flags ||| Flags.linked) := by
  refine ⟨_, ⟨_, fun n hn => convert_eq T hl n hn⟩, ?_⟩
  simp only [pre_eq, clone_kids, List.map_cons, pre_chainUp]
  rfl

/-- C46. The linked tree mirrors the source – same structure – exactly if in the source only last siblings have children. -/
theorem C46_structure_partial (T : Tree) (hl : T.flags.has Flags.linked = false) : ∃ U, (∃ N, ∀ n, N ≤ n → convert n T = some [U]) ∧ (U = T.linkedCopy ↔ T.LastOnly) := by
  refine ⟨_, ⟨_, fun n hn => convert_eq T hl n hn⟩, ?_⟩
  rw [mirror_eq, lastOnly_eq, ← chainUp_iff _ T.kids (Nat.le_refl _)]
  exact ⟨linkClone_inj, fun h => by rw [h]⟩

/-- C46 (defect). Loading `X(P(Q), R)` over a link gives `X(P(Q, R))`: the item after an item with children becomes its child. -/
theorem C46_structure_wrong : ∃ T : Tree, T.flags.has Flags.linked = false ∧ ∃ p q r x : Id, ∃ N, ∀ n, N ≤ n →
    (T.id = x ∧ T.kids.map Tree.id = [p, r] ∧ T.kids.map (fun k => k.kids.map Tree.id) = [[q], []]) ∧
    ∃ U, convert n T = some [U] ∧ U.id = x ∧ U.kids.map Tree.id = [p] ∧ U.kids.map (fun k => k.kids.map Tree.id) = [[q, r]] :=
  ⟨linkSrc 0, rfl, 2, 3, 4, 1, 10, fun n hn => ⟨⟨rfl, rfl, rfl⟩, _, convert_eq (linkSrc 0) rfl n hn, rfl, rfl, rfl⟩⟩

/-- C46 (defect). If a child of the source is itself a linked item no clone is made: the very object of the source becomes a child of the link root. Appending it there leaves it in both lists of children
and only the second one is its parent. -/
theorem C46_shared_wrong : (∀ (T : Tree) (n : Nat), T.flags.has Flags.linked = true → convert n T = some [T]) ∧
    ∀ (h : Heap) (s p c : Id), c ∈ h.kids s → s ≠ p → c ∈ (appendItem h p c).kids s ∧ c ∈ (appendItem h p c).kids p ∧ (appendItem h p c).par c = some p := by
  refine ⟨fun T n h => by simp [convert, h], ?_⟩
  intro h s p c hc hs
  unfold appendItem
  split
  · rename_i hk
    have : (h.kids p) = [] := hk
    refine ⟨?_, ?_, ?_⟩
    · by_cases he : s = c
      · subst he; simpa [Heap.kids, Heap.setParent, Heap.modify, hs] using hc
      · simpa [Heap.kids, Heap.setParent, Heap.modify, hs, he] using hc
    · by_cases he : p = c <;> simp [Heap.kids, Heap.setParent, Heap.modify, he]
    · simp [Heap.par, Heap.setParent, Heap.modify]
  · refine ⟨?_, ?_, ?_⟩
    · by_cases he : s = c
      · subst he; simpa [Heap.kids, Heap.setParent, Heap.setItems, Heap.setFams, Heap.modify, hs] using hc
      · simpa [Heap.kids, Heap.setParent, Heap.setItems, Heap.setFams, Heap.modify, hs, he] using hc
    · by_cases he : p = c <;> simp [Heap.kids, Heap.setParent, Heap.setItems, Heap.setFams, Heap.modify, he]
    · simp [Heap.par, Heap.setParent, Heap.modify]

/-- C46. The children of the link root after loading stand for the keys of the source, each once, in the order of the source – as new linked items or covered by a local item. -/
theorem C46_order {α : Type} (old : List (LKey × Bool × α)) (src : List LKey) : (mergeKids old src).filterMap LOut.stands = src := mergeLoop_stands _ _ _

/-- C46. Every local child of the link root survives loading, exactly once, and no child appears that was not there or is not made from the source (children have different keys). -/
theorem C46_locals {α : Type} [DecidableEq α] (old : List (LKey × Bool × α)) (src : List LKey) (hk : (old.map (·.1)).Nodup) (hx : (old.map (·.2.2)).Nodup) :
    (∀ k x, (k, false, x) ∈ old → ((mergeKids old src).filterMap LOut.kept).count x = 1) ∧
    (∀ x ∈ (mergeKids old src).filterMap LOut.kept, x ∈ old.map (·.2.2)) ∧ ((mergeKids old src).filterMap LOut.kept).Nodup := by
  have hp := mergeLoop_kept (fun k => decide (k ∈ src)) src (localEntries false old) (by rw [localEntries_keys]; exact hk)
  have hsub : ((localEntries false old).filterMap (·.2)).Sublist (old.map (·.2.2)) := localEntries_sub old false
  have hnd : ((mergeKids old src).filterMap LOut.kept).Nodup := hp.nodup_iff.2 (hsub.nodup hx)
  refine ⟨?_, fun x hm => hsub.subset (hp.mem_iff.1 hm), hnd⟩
  intro k x hm
  rw [hnd.count, if_pos]
  refine hp.mem_iff.2 ?_
  exact List.mem_filterMap.2 ⟨_, localEntries_locals old false k x hm, rfl⟩

/-- C46. A local child that covers a key of the source takes its place (it is not appended elsewhere) -/
theorem C46_cover {α : Type} (old : List (LKey × Bool × α)) (src : List LKey) (hk : (old.map (·.1)).Nodup) (k : LKey) (x : α) (hx : (k, false, x) ∈ old) (hs : k ∈ src) :
    LOut.old x k true ∈ mergeKids old src :=
  mergeLoop_cover _ k x (by simpa using hs) src hs _ (by rw [localEntries_keys]; exact hk) (localEntries_locals _ _ _ _ hx)

/-- C46. The first loading gives one new linked item per key of the source, in the order of the source. -/
theorem C46_first_load {α : Type} (src : List LKey) : mergeKids ([] : List (LKey × Bool × α)) src = src.map .new := by
  have : ∀ (f : LKey → Bool) (l : List LKey), mergeLoop f l ([] : List (LEntry α)) = l.map .new := by
    intro f l
    induction l with
    | nil => rfl
    | cons k r ih => simp [mergeLoop, ih]
  exact this _ _

/-- C46 (defect). On a second loading the first child is kept even if it is a linked item: it is treated as a local item, so a changed value in the source does not reach it. -/
theorem C46_reload_wrong {α : Type} (k : LKey) (x : α) (rest : List (LKey × Bool × α)) (src : List LKey) (hn : (((k, true, x) :: rest).map (·.1)).Nodup) (hs : k ∈ src) :
    LOut.old x k true ∈ mergeKids ((k, true, x) :: rest) src :=
  mergeLoop_cover _ k x (by simpa using hs) src hs _ (by rw [localEntries_keys]; exact hn) (by simp [localEntries])

/-- C46 (defect). … and it stays even if the source does not contain it any more. -/
theorem C46_removed_wrong {α : Type} (k : LKey) (x : α) : mergeKids [(k, true, x)] [] = [.old x k false] := rfl

/-- C46. Linked items are protected: on a linked item that is no link root every call that would change the children raises PermissionError and changes nothing, and setting the value or a part of it
raises PermissionError too. -/
theorem C46_protected (ms : ModelSet) (h : Heap) (p : Id) (hl : (h.flags p).has Flags.linked = true) (hr : (h.flags p).has Flags.linkRoot = false) :
    (∀ c, ChangesKids h p c → step ms h c = (h, .error .permission)) ∧
    (∀ v k, setValue ms h p v = (h, .error .permission) ∧ setKeyValue ms h p k v = (h, .error .permission)) := by
  refine ⟨fun c hc => C21_locked ms h p ⟨.inr (.inl hl), hr⟩ c hc, fun v k => C22_set ms h p ?_ v k⟩
  simp only [isValueReadOnly]
  revert hl
  generalize h.flags p = f
  revert f
  decide

/-! ### the hypotheses are met -/
example : linkSrc2.LastOnly ∧ ¬ (linkSrc 0).LastOnly := by simp [linkSrc, linkSrc2, Tree.LastOnly, Tree.LastOnlyL, Tree.kids]
example : convert 20 linkSrc2 = some [linkSrc2.linkedCopy] := rfl
/-- locals 7 ("l",0) before the linked ("a",0) and 8 covering ("b",0) -/
example : mergeKids [((.str "l", 0), false, 7), ((.str "a", 0), true, 5), ((.str "b", 0), false, 8)] [(.str "a", 0), (.str "c", 0), (.str "b", 0)]
    = [.old 7 (.str "l", 0) false, .new (.str "a", 0), .new (.str "c", 0), .old 8 (.str "b", 0) true] := rfl
end ITree
