import Verif.Props.Positions
import Verif.Props.Reorder
/-
Negations: reachable states (or single calls) for which the English property fails.
-/
namespace ITree

/-- one item, 22 children appended, the first 21 deleted again -/
def bareCalls : List Call := .new (.other 0) .noValue [] 0#6 :: List.replicate 22 (.append 0 (.val .none)) ++ List.replicate 21 (.del 0 (.int 0))

def bare : Heap := run ms0 Heap.empty bareCalls

theorem bare_tidy : Tidy ms0 bare := tidy_run _ .empty (by decide +kernel)

/-- C18 is false: in a state reached by appending and deleting only, `tag_idx` is a bare number. -/
theorem C18_tag_idx_bare : bare.kids 0 = [22] ∧ (bare.tagIdx 22).2 = .ok (.bare 0) := by decide +kernel

/-- 50 children appended, then 30 put in front -/
def manyCalls : List Call := .new (.other 0) .noValue [] 0#6 :: List.replicate 50 (.append 0 (.val .none)) ++ List.replicate 30 (.appendLeft 0 (.val .none))

def many : Heap := run ms0 Heap.empty manyCalls

theorem many_tidy : Tidy ms0 many := tidy_run _ .empty (by decide +kernel)

/-- C05 and C24 are false: `insert(60, x)` raises AttributeError on an unprotected item with 80 children and leaves `x` (object 81) in the item list, but
without parent and unknown to the family. -/
theorem C05_C24_insert_crash : many.isProtected 0 = false ∧ (many.kids 0).length = 80 ∧
    (let r := insert many 0 (some (.int 60)) (.val .none)
     r.2 = .error .attribute ∧ (r.1.kids 0)[60]? = some 81 ∧ r.1.par 81 = none ∧
      ∃ l, getItem r.1 0 (.tag .noTag) = .ok (.many l) ∧ 81 ∉ l) := by
  refine ⟨by decide +kernel, by decide +kernel, by decide +kernel, by decide +kernel, by decide +kernel, many.kids 0, by decide +kernel, by decide +kernel⟩

/-- C11, C24: the same crash in `move` loses the item: it is no longer a child of anything it could be reached from … -/
theorem C11_C24_move_crash : (let r := move many 80 (some (.int 60))
    r.2 = .error .attribute ∧ r.1.par 80 = none ∧ (r.1.kids 0)[60]? = some 80) := by decide +kernel

/-- C05, C01 are false below `-len`: `[1, 2, 3, 5].insert(-5, 6)` puts 6 before the last child and first into the family. -/
theorem C05_C01_insert_below : demo.kids 0 = [1, 2, 3, 5] ∧ (let r := insert demo 0 (some (.int (-5))) (.item 6)
    r.2 = .ok 6 ∧ r.1.kids 0 = [1, 2, 3, 6, 5] ∧ getItem r.1 0 (.tag (.other 1)) = .ok (.many [6, 1, 3])) := by decide

/-- C08 is false for an argument that already is a child: it is moved to the front and a copy (object 7) stays at its old place. -/
theorem C08_extendleft_own_child : (let r := extendLeft demo 0 [.item 3]
    r.2 = .ok () ∧ r.1.kids 0 = [3, 1, 2, 7, 5]) := by decide +kernel

/-- C25 is false: appending the root to one of its children is accepted and makes the root its own grandparent. -/
theorem C25_cycle : (let r := append demo 1 (.item 0)
    r.2 = .ok 0 ∧ 1 ∈ r.1.kids 0 ∧ 0 ∈ r.1.kids 1 ∧ ancestor r.1 2 0 = some 0) := by decide

/-- C24, C09 are false for slices: `del t[:2]` raises TypeError after it took the two items out of the list; they keep their parent and stay in
their family. -/
theorem C09_C24_del_slice_error : (let r := delItem demo 0 (.slice ⟨none, some 2, none⟩)
    r.2 = .error .type ∧ r.1.kids 0 = [3, 5] ∧ r.1.par 1 = some 0 ∧ getItem r.1 0 (.tag (.other 1)) = .ok (.many [1, 3])) := by decide

/-- C09, C01, C02 are false for slices: `del t[0:2]` detaches the first item only. -/
theorem C09_C01_del_slice : (let r := delItem demo 0 (.slice ⟨some 0, some 2, none⟩)
    r.2 = .ok [1, 2] ∧ r.1.kids 0 = [3, 5] ∧ r.1.par 2 = some 0 ∧ getItem r.1 0 (.tag (.other 2)) = .ok (.many [2])) := by decide

/-- C10, C01 are false: replacing the only item of a tag by an item with another tag leaves an empty family behind, which is found by the tag … -/
theorem C10_C01_empty_family : (let r := setItem demo 0 (.int 1) (.item 6)
    r.2 = .ok 6 ∧ r.1.kids 0 = [1, 6, 3, 5] ∧ getItem r.1 0 (.tag (.other 2)) = .ok (.many [])) := by decide

/-- … and makes the next `insert` of an item with this tag fail after it was put in the list. -/
theorem C10_C24_empty_family_insert : (let h := (setItem demo 0 (.int 1) (.item 6)).1
    let r := insert h 0 (some (.int 1)) (.item 2)
    h.par 2 = none ∧ r.2 = .error .index ∧ r.1.kids 0 = [1, 2, 6, 3, 5] ∧ r.1.par 2 = none) := by decide

/-- C10, C02 are false: `t[tag] = x` leaves the replaced items with a reference to their former parent. -/
theorem C10_C02_replace_family : (let r := setItem demo 0 (.tag (.other 1)) (.item 6)
    r.2 = .ok 6 ∧ r.1.kids 0 = [6, 2, 5] ∧ r.1.par 1 = some 0 ∧ r.1.par 3 = some 0) := by decide

/-- two children with the same tag and value -/
def twinsCalls : List Call := [.new (.other 0) .noValue [] 0#6, .append 0 (.val (.int 5)), .append 0 (.val (.int 5))]
def twins : Heap := run ms0 Heap.empty twinsCalls
theorem twins_tidy : Tidy ms0 twins := tidy_run _ .empty (by decide)

/-- C12, C01 are false: renaming the second of two equal children takes the first one out of the family. -/
theorem C12_C01_rename_twin : twins.kids 0 = [1, 2] ∧ (let r := rename twins 2 (.other 9)
    r.2 = .ok () ∧ r.1.tag 1 = .noTag ∧ r.1.tag 2 = .other 9 ∧ getItem r.1 0 (.tag .noTag) = .ok (.many [2])) := by
  have e : twins.eqItem 1 2 = true := by
    have e1 : twins.tree 1 = .node 1 .noTag (.int 5) 0#6 none [] := rfl
    have e2 : twins.tree 2 = .node 2 .noTag (.int 5) 0#6 none [] := rfl
    simp [Heap.eqItem, e1, e2, Tree.pyEq, valueEqual, Tree.tag, Tree.kids, Tree.value, Tree.deep, Tree.preL, Val.pyEq]
  have er : pyRemove twins.eqItem 2 [1, 2] = some [2] := by simp [pyRemove, e]
  have key : rename twins 2 (.other 9) = (((twins.setFams 0 [(.noTag, [2])]).modify 2 fun n => { n with tag := .other 9 }).setFams 0
      [(.noTag, [2]), (.other 9, [2])] |>.setParent 2 (some ⟨0, 1, 0, false⟩), .ok ()) := by
    simp only [rename, show (twins.node 2).parent = some ⟨0, 1, 1, false⟩ from rfl, show twins.isProtected 0 = false from rfl,
      show (twins.node 0).fams = some [(.noTag, [1, 2])] from rfl, show twins.tag 2 = .noTag from rfl,
      show Fams.get? [(Tag.noTag, [1, 2])] .noTag = some [1, 2] from rfl, er]
    rfl
  rw [key]
  decide

/-- `insert` and `move` with an item as target never work. -/
theorem C05_insert_item_target (h : Heap) (p x y : Id) (hx : h.par x = none) (hpr : h.isProtected p = false) (hk : h.kids p ≠ []) :
    insert h p (some (.item y)) (.item x) = (h, .error .value) := by
  have hx' : (h.node x).parent = none := by simpa [Heap.par] using hx
  simp [insert, guardPlace, hpr, prepItem, hx', insertPos, hk]

example : insert demo 0 (some (.item 2)) (.item 6) = (demo, .error .value) := C05_insert_item_target _ _ _ _ (by decide) (by decide) (by decide)

/-- C49 is false after `sort`: the former child (object 1) is not an item of the tree any more, but renaming it removes the family of its replacement
(object 2) from the dict of the former parent. -/
def strayCalls : List Call := [.new (.other 0) .noValue [] 0#6, .new (.other 1) .noValue [] 0#6, .append 0 (.item 1), .sort 0 (fun _ => 0) false]

theorem C49_C12_stray_after_sort : (let h := run ms0 Heap.empty strayCalls
    let h' := run ms0 h [.rename 1 (.other 9)]
    (h.tree 0).ids = [0, 2] ∧ getItem h 0 (.tag (.other 1)) = .ok (.many [2]) ∧
    h'.tag 2 = .other 1 ∧ getItem h' 0 (.tag (.other 1)) = .error .key ∧ getItem h' 0 (.tag (.other 9)) = .ok (.many [1])) := by decide +kernel

/-- C25 is false after `sort`: the former child (object 1) can be made the parent of the item it still names as its parent; object 0 is then its own grandparent. -/
theorem C25_cycle_after_sort : (let h := run ms0 Heap.empty strayCalls
    let r := append h 1 (.item 0)
    r.2 = .ok 0 ∧ r.1.par 0 = some 1 ∧ r.1.par 1 = some 0) := by decide +kernel

end ITree
