import Verif.Props.Removing
import Verif.Props.Reorder
import Verif.Props.Positions
/-
C21, C22, C23: protection.
-/
namespace ITree

/-- structure protection: the item is read-only, linked or a placeholder, and no link root -/
def TreeLocked (h : Heap) (p : Id) : Prop :=
  ((h.flags p).has Flags.readOnlyTree ∨ (h.flags p).has Flags.linked ∨ (h.flags p).has Flags.placeholder) ∧ (h.flags p).has Flags.linkRoot = false

theorem locked_prot {h : Heap} {p : Id} (L : TreeLocked h p) : h.isProtected p = true ∧ h.isLinkRoot p = false := by
  obtain ⟨a, b⟩ := L
  refine ⟨?_, b⟩
  simp only [Heap.isProtected]
  revert a
  generalize h.flags p = f
  revert f
  decide

theorem guardAppend_locked {h : Heap} {p : Id} (L : TreeLocked h p) (a : Arg) : guardAppend h p a = some .permission := by
  obtain ⟨a, b⟩ := locked_prot L; simp [guardAppend, a, b]
theorem guardPlace_locked {h : Heap} {p : Id} (L : TreeLocked h p) (a : Arg) : guardPlace h p a = some .permission := by
  obtain ⟨a, b⟩ := locked_prot L; simp [guardPlace, a, b]
theorem guardDel_locked {h : Heap} {p : Id} (L : TreeLocked h p) : guardDel h p = .error .permission := by
  obtain ⟨a, b⟩ := locked_prot L; simp [guardDel, a, b]
theorem guardReorder_locked {h : Heap} {p : Id} (L : TreeLocked h p) : guardReorder h p = .error .permission := by
  obtain ⟨a, b⟩ := locked_prot L; simp [guardReorder, a, b]

/-- the structure changing calls on `p` (or moving/renaming a child of `p`) -/
inductive ChangesKids (h : Heap) (p : Id) : Call → Prop
  | append (a) : ChangesKids h p (.append p a)
  | appendLeft (a) : ChangesKids h p (.appendLeft p a)
  | insert (tg a) : ChangesKids h p (.insert p tg a)
  | extend (as) : ChangesKids h p (.extend p as)
  | extendTree (u) : ChangesKids h p (.extendTree p u)
  | extendLeft (as) : ChangesKids h p (.extendLeft p as)
  | del (tg) : ChangesKids h p (.del p tg)
  | setItem (tg a) : ChangesKids h p (.setItem p tg a)
  | reverse : ChangesKids h p (.reverse p)
  | rotate (n) : ChangesKids h p (.rotate p n)
  | sort (k r) : ChangesKids h p (.sort p k r)
  | clear (k) : ChangesKids h p (.clear p k)
  | move (x tg) (hx : h.par x = some p) : ChangesKids h p (.move x tg)
  | rename (x g) (hx : h.par x = some p) : ChangesKids h p (.rename x g)

/-- C21. In every state (reachable or not) every structure changing call on a protected item raises PermissionError and leaves the whole state
untouched. -/
theorem C21_locked (ms : ModelSet) (h : Heap) (p : Id) (L : TreeLocked h p) (c : Call) (hc : ChangesKids h p c) :
    step ms h c = (h, .error .permission) := by
  obtain ⟨hp, hl⟩ := locked_prot L
  cases hc with
  | append a => simp [step, append, guardAppend_locked L, Res.void, Except.map]
  | appendLeft a => simp [step, appendLeft, guardPlace_locked L, Res.void, Except.map]
  | insert tg a =>
    cases tg with
    | none => simp [step, insert, append, guardAppend_locked L, Res.void, Except.map]
    | some tg => simp [step, insert, guardPlace_locked L, Res.void, Except.map]
  | extend as => simp [step, extend, guardExtend, hp, hl]
  | extendTree u => simp [step, extendTree, guardExtend, hp, hl]
  | extendLeft as => simp [step, extendLeft, guardExtendLeft, hp, hl]
  | del tg => cases tg <;> simp [step, delItem, delInt, delSlice, guardDel_locked L, Res.void, Except.map]
  | setItem tg a => simp [step, setItem, guardPlace_locked L, Res.void, Except.map]
  | reverse => simp [step, reverse, guardReorder_locked L]
  | rotate n => simp [step, rotate, guardReorder_locked L]
  | sort k r => simp [step, sort, guardReorder_locked L]
  | clear k => simp [step, clear, hp, hl]
  | move x tg hx =>
    simp only [Heap.par, Option.map_eq_some_iff] at hx
    obtain ⟨r, hr, rfl⟩ := hx
    simp [step, move, hr, hp, hl, Res.void, Except.map]
  | rename x g hx =>
    simp only [Heap.par, Option.map_eq_some_iff] at hx
    obtain ⟨r, hr, rfl⟩ := hx
    simp [step, rename, hr, hp, hl]

/-- C21, `remove`: the same, up to position caches -/
theorem C21_locked_remove {ms : ModelSet} {h : Heap} (R : Reach ms h) {p x : Id} (L : TreeLocked h p) (hx : x ∈ h.kids p) :
    (remove h p x).2 = .error .permission ∧ Unchanged h (remove h p x).1 := by
  have H := idx_ceq h x
  obtain ⟨n, h1, _⟩ := idx_child R.core.wf hx
  have L' : TreeLocked (h.idx x).1 p := by simpa [TreeLocked, H.flags] using L
  simp only [remove, par_child R.core.wf hx, if_true, delByItem, h1, delInt, guardDel_locked L']
  exact ⟨trivial, H.unchanged⟩

/-- the demo state with everything read-only -/
def demoLocked : Heap := (setTreeReadOnly demo 0).1
example : TreeLocked demoLocked 0 ∧ TreeLocked demoLocked 1 ∧ demoLocked.par 1 = some 0 := by
  refine ⟨⟨.inl (by decide), by decide⟩, ⟨.inl (by decide), by decide⟩, by decide⟩
example : (step ms0 demoLocked (.rename 1 (.other 5))).2 = .error .permission := by
  rw [C21_locked ms0 demoLocked 0 ⟨.inl (by decide), by decide⟩ _ (.rename 1 _ (by decide))]

/-- a protected item stays as it is as long as only structure changing calls on it are tried -/
theorem C21_locked_history (ms : ModelSet) (h : Heap) (p : Id) (L : TreeLocked h p) (cs : List Call) (hc : ∀ c ∈ cs, ChangesKids h p c) :
    run ms h cs = h := by
  induction cs with
  | nil => rfl
  | cons c cs ih =>
    simp only [run, C21_locked ms h p L c (hc c (by simp))]
    exact ih fun c hc' => hc c (by simp [hc'])

/-! ### C22 -/

/-- C22. On an item that reports itself value protected `set_value` and `set_key_value` raise PermissionError and change nothing. -/
theorem C22_set (ms : ModelSet) (h : Heap) (x : Id) (hx : isValueReadOnly h x = true) (v k : Val) :
    setValue ms h x v = (h, .error .permission) ∧ setKeyValue ms h x k v = (h, .error .permission) := by
  have : (h.flags x).has Flags.valueProtected = true := by
    simp only [isValueReadOnly] at hx
    revert hx
    generalize h.flags x = f
    revert f
    decide
  simp [setValue, setKeyValue, this]

/-- C22 (partial: only for the read-only flag, not for linked items, see `C22_del_value_linked`). `del_value` and `del_key_value` raise PermissionError and
change nothing. -/
theorem C22_del_partial (h : Heap) (x : Id) (hx : (h.flags x).has Flags.readOnlyValue = true) (k : Val) :
    delValue h x = (h, .error .permission) ∧ delKeyValue h x k = (h, .error .permission) := by
  simp [delValue, delKeyValue, hx]

/-- the demo state with a value protected item -/
def demoVal : Heap := (setValueReadOnly demo 1).1
example : isValueReadOnly demoVal 1 = true ∧ (demoVal.flags 1).has Flags.readOnlyValue = true := by decide

/-- C22 is false for linked items: they report themselves as value protected, but `del_value` removes the value. -/
theorem C22_del_value_linked (h : Heap) (x : Id) (hl : (h.flags x).has Flags.linked = true) (hr : (h.flags x).has Flags.readOnlyValue = false) :
    isValueReadOnly h x = true ∧ ∃ h', delValue h x = (h', .ok (h.node x).value) ∧ (h'.node x).value = .noValue := by
  constructor
  · simp only [isValueReadOnly]
    revert hl
    generalize h.flags x = f
    revert f
    decide
  · refine ⟨h.setVal x .noValue, by simp [delValue, hr], by simp [Heap.setVal, Heap.modify]⟩

example : ∃ h : Heap, (h.flags 1).has Flags.linked = true ∧ (h.flags 1).has Flags.readOnlyValue = false ∧ (h.node 1).value = .int 1 :=
  ⟨demo.modify 1 fun n => { n with flags := Flags.linked }, by decide, by decide, rfl⟩

/-! ### C23 -/

theorem setFlagsAll_ok (f : Flags) : ∀ (l : List Id) (h : Heap), (∀ x ∈ l, (h.flags x).has Flags.linked = false) → f.has Flags.linked = false →
    ∃ h', setFlagsAll h f l = (h', .ok ()) ∧ h'.next = h.next ∧ ∀ i, h'.node i = { h.node i with flags := if i ∈ l then h.flags i ||| f else h.flags i } := by
  intro l
  induction l with
  | nil => intro h _ _; exact ⟨h, rfl, rfl, fun i => by simp [Heap.flags]⟩
  | cons x l ih =>
    intro h hl hf
    have hx := hl x (by simp)
    have key : ∀ a b : Flags, a.has Flags.linked = false → b.has Flags.linked = false → (a ||| b).has Flags.linked = false := by decide +kernel
    obtain ⟨h', e1, e2, e3⟩ := ih (h.modify x fun n => { n with flags := n.flags ||| f }) (by
      intro y hy
      simp only [Heap.flags, Heap.modify]
      split
      · exact key _ _ (hl y (by simp [hy])) hf
      · exact hl y (by simp [hy])) hf
    refine ⟨h', ?_, e2, fun i => ?_⟩
    · simp only [setFlagsAll, setFlags1, hx, Bool.false_eq_true, if_false, e1]
    · rw [e3 i]
      simp only [Heap.flags, Heap.modify]
      by_cases hi : i = x
      · subst hi
        simp only [if_true, List.mem_cons, true_or]
        have : ∀ a b : Flags, a ||| b ||| b = a ||| b := by decide +kernel
        split <;> simp [this]
      · simp [hi]

/-- C23. `set_tree_read_only` on an item without linked items below sets the flag on the item and everything below it, and changes nothing else. -/
theorem C23_set_deep {ms : ModelSet} {h : Heap} (R : Reach ms h) (x : Id) (hl : ∀ y, Below h x y → (h.flags y).has Flags.linked = false) :
    ∃ h', setTreeReadOnly h x = (h', .ok ()) ∧ h'.next = h.next ∧
      (∀ y, Below h x y → h'.flags y = h.flags y ||| Flags.readOnlyTree ∧ isTreeReadOnly h' y = true) ∧
      (∀ y, ¬ Below h x y → h'.flags y = h.flags y) ∧
      (∀ i, h'.tag i = h.tag i ∧ (h'.node i).value = (h.node i).value ∧ h'.kids i = h.kids i ∧ h'.par i = h.par i ∧ (h'.node i).link = (h.node i).link) := by
  have C := R.core
  have Rx := tree_rep C.wf C.forest x
  have hids : x :: (h.tree x).deep.map Tree.id = (h.tree x).ids := by
    have e := tree_id h x
    cases ht : h.tree x with
    | node i t v f l ks =>
      rw [ht] at e
      simp only [Tree.id] at e
      simp [Tree.ids_node, Tree.deep, Tree.kids, Tree.idsL, e]
  have hb : ∀ y, Below h x y ↔ y ∈ (h.tree x).ids := fun y => by
    have := below_iff_ids Rx y
    rwa [tree_id] at this
  obtain ⟨h', e1, e2, e3⟩ := setFlagsAll_ok Flags.readOnlyTree (h.tree x).ids h (fun y hy => hl y ((hb y).2 hy)) (by decide)
  refine ⟨h', by rw [setTreeReadOnly, hids, e1], e2, fun y hy => ?_, fun y hy => ?_, fun i => ?_⟩
  · have hf : h'.flags y = h.flags y ||| Flags.readOnlyTree := by
      simp only [Heap.flags] at *
      rw [e3 y]; simp [(hb y).1 hy]
    refine ⟨hf, ?_⟩
    simp only [isTreeReadOnly, hf]
    generalize h.flags y = f
    revert f
    decide
  · have : y ∉ (h.tree x).ids := fun c => hy ((hb y).2 c)
    simp only [Heap.flags] at *
    rw [e3 y]; simp [this]
  · simp only [Heap.tag, Heap.kids, Heap.par, e3 i, and_self]

example : demoLocked.flags 4 = Flags.readOnlyTree ∧ demoLocked.flags 6 = 0#6 := by decide

/-- C23. An item cannot be unprotected while its parent is protected. -/
theorem C23_parent_blocks (h : Heap) (x p : Id) (hp : h.par x = some p) (hr : (h.flags p).has Flags.readOnlyTree = true) :
    unsetTreeReadOnly h x = (h, .error .permission) := by simp [unsetTreeReadOnly, hp, hr]

example : (unsetTreeReadOnly demoLocked 1).2 = .error .permission := by rw [C23_parent_blocks _ 1 0 (by decide) (by decide)]

/-- C23 (partial: only if no other flag is set, see `C23_unset_drops_all`). Unsetting clears the flag and changes nothing else. -/
theorem C23_unset_partial (h : Heap) (x : Id) :
    (h.flags x = Flags.readOnlyTree → (∀ p, h.par x = some p → (h.flags p).has Flags.readOnlyTree = false) →
      unsetTreeReadOnly h x = (h.modify x (fun n => { n with flags := 0#6 }), .ok ())) ∧
    (h.flags x = Flags.readOnlyValue → unsetValueReadOnly h x = (h.modify x (fun n => { n with flags := 0#6 }), .ok ())) := by
  have k : ∀ s f : Flags, unsetFlags s f = 0#6 := by decide +kernel
  constructor
  · intro hf hp
    have hl : (h.flags x).has Flags.linked = false := by rw [hf]; decide
    have : unsetFlagsOp h x Flags.readOnlyTree = (h.modify x (fun n => { n with flags := 0#6 }), .ok ()) := by
      simp [unsetFlagsOp, hl, k]
    simp only [unsetTreeReadOnly]
    split
    · next p hpp => simp [hp p hpp, this]
    · exact this
  · intro hf
    have hl : (h.flags x).has Flags.linked = false := by rw [hf]; decide
    simp [unsetValueReadOnly, unsetFlagsOp, hl, k]

/-- C23 is false: unsetting one flag drops all flags of the item. -/
theorem C23_unset_drops_all (h : Heap) (x : Id) (hl : (h.flags x).has Flags.linked = false) :
    ∃ h', unsetValueReadOnly h x = (h', .ok ()) ∧ h'.flags x = 0#6 := by
  have k : ∀ s f : Flags, unsetFlags s f = 0#6 := by decide +kernel
  exact ⟨h.modify x (fun n => { n with flags := 0#6 }), by simp [unsetValueReadOnly, unsetFlagsOp, hl, k], by simp [Heap.modify, Heap.flags]⟩

/-- in particular a structure protected item loses this protection when its value is unprotected -/
theorem C23_unset_unlocks : TreeLocked demoLocked 1 ∧ (unsetValueReadOnly demoLocked 1).2 = .ok () ∧
    (unsetValueReadOnly demoLocked 1).1.isProtected 1 = false := by
  refine ⟨⟨.inl (by decide), by decide⟩, by decide, by decide⟩

/-- C23, C24 are false with a linked item below: the call stops in the middle, with part of the items protected. -/
theorem C23_C24_set_stops : (let h := demo.modify 2 fun n => { n with flags := Flags.linked }
    let r := setTreeReadOnly h 0
    r.2 = .error .permission ∧ r.1.flags 0 = Flags.readOnlyTree ∧ r.1.flags 3 = 0#6) := by decide

end ITree
