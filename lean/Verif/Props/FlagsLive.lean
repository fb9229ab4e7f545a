import Verif.Model.FlagsLive
import Verif.Props.DeepMut
/-
C55 for filters that look at the item being changed (its flags, its value, its tag …).
-/
namespace ITree

/-- a filter that looks at the item it is asked about only (with a live view: at the time it is asked) -/
def LooksAtItem (F : Heap → Id → Bool) : Prop := ∀ h h' i, h.node i = h'.node i → F h i = F h' i

/-- an operation that writes the item it is called for only -/
def WritesItem (op : Heap → Id → Res Unit) : Prop := ∀ h i j, j ≠ i → (op h i).1.node j = h.node j

theorem forEach_app (op : Heap → Id → Res Unit) : ∀ (l r : List Id) (h : Heap), forEach op h (l ++ r) =
    (match (forEach op h l).2 with | .error e => ((forEach op h l).1, .error e) | .ok () => forEach op (forEach op h l).1 r) := by
  intro l
  induction l with
  | nil => intro r h; rfl
  | cons x l ih =>
    intro r h
    simp only [List.cons_append, forEach]
    cases hx : (op h x).2 with
    | error e => rfl
    | ok u => exact ih r _

theorem forEach_writes {op : Heap → Id → Res Unit} (W : WritesItem op) : ∀ (l : List Id) (h : Heap) (j : Id), j ∉ l → (forEach op h l).1.node j = h.node j := by
  intro l
  induction l with
  | nil => intro h j _; rfl
  | cons x l ih =>
    intro h j hj
    simp only [List.mem_cons, not_or] at hj
    simp only [forEach]
    cases hx : (op h x).2 with
    | error e => exact W h x j hj.1
    | ok u => rw [ih _ j hj.2, W h x j hj.1]

/-- the items the calls are about, in the order of the loop -/
def picked (f : Id → Bool) (hier : Bool) (ts : List Tree) : List Id := if hier then Tree.preFL f ts else (Tree.idsL ts).filter f

theorem picked_sub {f : Id → Bool} {hier : Bool} {ts : List Tree} {i : Id} (h : i ∈ picked f hier ts) : i ∈ Tree.idsL ts := by
  unfold picked at h
  split at h
  · rw [← preFL_true]; exact (preFL_sublist f ts).subset h
  · exact (List.mem_filter.1 h).1

mutual
theorem walkT_eq {op : Heap → Id → Res Unit} {F : Heap → Id → Bool} (W : WritesItem op) (L : LooksAtItem F) (hier : Bool) (h0 : Heap) :
    ∀ (T : Tree) (h : Heap), T.ids.Nodup → (∀ i ∈ T.ids, h.node i = h0.node i) →
    walkT op F hier h T = forEach op h (picked (F h0) hier [T])
  | .node i t v fl l ks, h, hn, hs => by
    rw [Tree.ids_node] at hn hs
    have hi : F h i = F h0 i := L _ _ _ (hs i (by simp))
    have step : ∀ h1 : Heap, (∀ j ∈ Tree.idsL ks, h1.node j = h0.node j) → walkL op F hier h1 ks = forEach op h1 (picked (F h0) hier ks) :=
      fun h1 g => walkL_eq W L hier h0 ks h1 (List.nodup_cons.1 hn).2 g
    have e1 : picked (F h0) hier [.node i t v fl l ks] = if F h0 i then i :: picked (F h0) hier ks else if hier then [] else picked (F h0) hier ks := by
      unfold picked
      clear step hi; cases hier <;> cases hF : F h0 i <;> simp [Tree.preFL, Tree.preF, Tree.idsL_cons, Tree.idsL_nil, Tree.ids_node, List.filter_cons, hF]
    rw [e1]
    unfold walkT
    rw [hi]
    by_cases hf : F h0 i = true
    · rw [if_pos hf, if_pos hf]
      simp only [forEach]
      cases hx : (op h i).2 with
      | error e => rfl
      | ok u =>
        refine step _ fun j hj => ?_
        rw [W h i j (fun c => (List.nodup_cons.1 hn).1 (c ▸ hj))]
        exact hs j (List.mem_cons_of_mem _ hj)
    · rw [if_neg hf, if_neg hf]
      split
      · rfl
      · exact step h fun j hj => hs j (List.mem_cons_of_mem _ hj)
theorem walkL_eq {op : Heap → Id → Res Unit} {F : Heap → Id → Bool} (W : WritesItem op) (L : LooksAtItem F) (hier : Bool) (h0 : Heap) :
    ∀ (ts : List Tree) (h : Heap), (Tree.idsL ts).Nodup → (∀ i ∈ Tree.idsL ts, h.node i = h0.node i) →
    walkL op F hier h ts = forEach op h (picked (F h0) hier ts)
  | [], h, _, _ => by cases hier <;> rfl
  | T :: ts, h, hn, hs => by
    rw [Tree.idsL_cons] at hn hs
    have e1 : picked (F h0) hier (T :: ts) = picked (F h0) hier [T] ++ picked (F h0) hier ts := by
      unfold picked
      cases hier <;> simp [Tree.preFL, Tree.idsL_cons, Tree.idsL_nil]
    rw [e1, forEach_app]
    unfold walkL
    rw [walkT_eq W L hier h0 T h (List.nodup_append.1 hn).1 (fun i hi => hs i (List.mem_append_left _ hi))]
    dsimp only
    cases hx : (forEach op h (picked (F h0) hier [T])).2 with
    | error e => rfl
    | ok u =>
      refine walkL_eq W L hier h0 ts _ (List.nodup_append.1 hn).2.1 fun j hj => ?_
      rw [forEach_writes W _ _ j (fun c => ?_), hs j (List.mem_append_right _ hj)]
      have := picked_sub c
      rw [Tree.idsL_cons, Tree.idsL_nil, List.append_nil] at this
      exact (List.nodup_append.1 hn).2.2 j this j hj rfl
end

theorem flagsLive_eq {ms : ModelSet} {h : Heap} (R : Reach ms h) {op : Heap → Id → Res Unit} {F : Heap → Id → Bool} (W : WritesItem op) (L : LooksAtItem F) (hier : Bool) (x : Id) :
    flagsLive op F hier h x = if parentReadOnly h x then (h, .error .permission) else forEach op h (flagTargets h x (some (F h)) hier) := by
  have C := R.core
  obtain ⟨RT, e⟩ := rep_of_tree C.wf C.forest x
  have hn := RT.ids_nodup C.wf C.forest
  generalize hT : h.tree x = T at *
  obtain ⟨i, t, v, fl, l, ks⟩ := T
  simp only [Tree.id] at e
  subst e
  rw [Tree.ids_node] at hn
  unfold flagsLive
  split
  · rfl
  · simp only [hT, Tree.kids]
    have e2 : flagTargets h i (some (F h)) hier = (if F h i then [i] else []) ++ picked (F h) hier ks := by
      simp only [flagTargets, hT, Tree.kids, picked, Tree.deep, Tree.idsL]
    rw [e2]
    by_cases hf : F h i = true
    · simp only [if_pos hf, List.cons_append, List.nil_append, forEach]
      cases hx : (op h i).2 with
      | error e => rfl
      | ok u =>
        exact walkL_eq W L hier h ks _ (List.nodup_cons.1 hn).2 fun j hj => W h i j fun c => (List.nodup_cons.1 hn).1 (c ▸ hj)
    · simp only [if_neg hf, List.nil_append]
      exact walkL_eq W L hier h ks h (List.nodup_cons.1 hn).2 fun j _ => rfl

theorem writes_set (fl : Flags) : WritesItem fun h i => setFlags1 h i fl := by
  intro h i j hj
  simp only [setFlags1]
  split
  · rfl
  · simp [Heap.modify, hj]

theorem writes_unset (fl : Flags) : WritesItem fun h i => unsetFlagsOp h i fl := by
  intro h i j hj
  simp only [unsetFlagsOp]
  split
  · rfl
  · simp [Heap.modify, hj]

/-- C55. A filter that looks at the item it is asked about – at its flags, too – selects in the three calls exactly the items it would have selected before the call, although it is asked while flags are being
written: the calls do what they do with that selection fixed beforehand. -/
theorem C55_live_filter {ms : ModelSet} {h : Heap} (R : Reach ms h) (x : Id) (F : Heap → Id → Bool) (L : LooksAtItem F) (hier : Bool) :
    liveSetValueReadOnly h x F hier = deepSetValueReadOnly h x (some (F h)) hier ∧
    liveUnsetValueReadOnly h x F hier = deepUnsetValueReadOnly h x (some (F h)) hier ∧
    liveUnsetTreeReadOnly h x F hier = deepUnsetTreeReadOnly h x (some (F h)) hier := by
  refine ⟨?_, ?_, ?_⟩
  · exact flagsLive_eq R (writes_set _) L hier x
  · exact flagsLive_eq R (writes_unset _) L hier x
  · exact flagsLive_eq R (writes_unset _) L hier x

/-- C55. … so the selected items, and only they, get the flag. -/
theorem C55_live_set_value {ms : ModelSet} {h : Heap} (R : Reach ms h) (x : Id) (F : Heap → Id → Bool) (L : LooksAtItem F) (hier : Bool)
    (hp : ∀ p, h.par x = some p → (h.flags p).has Flags.readOnlyTree = false) (hl : ∀ y, Selected h x (some (F h)) hier y → (h.flags y).has Flags.linked = false) :
    ∃ h', liveSetValueReadOnly h x F hier = (h', .ok ()) ∧ h'.next = h.next ∧
      (∀ y, Selected h x (some (F h)) hier y → h'.flags y = h.flags y ||| Flags.readOnlyValue ∧ isValueReadOnly h' y = true) ∧
      (∀ y, ¬ Selected h x (some (F h)) hier y → h'.flags y = h.flags y) ∧
      (∀ i, h'.tag i = h.tag i ∧ (h'.node i).value = (h.node i).value ∧ h'.kids i = h.kids i ∧ h'.par i = h.par i ∧ (h'.node i).link = (h.node i).link) := by
  rw [(C55_live_filter R x F L hier).1]
  exact C55_set_value R x (some (F h)) hier hp hl

/-- the filter "value not yet protected" -/
def unprotected (h : Heap) (i : Id) : Bool := !(h.flags i).has Flags.readOnlyValue

example : LooksAtItem unprotected := fun h h' i e => by simp only [unprotected, Heap.flags, e]

example : ∃ h', liveSetValueReadOnly demo 0 unprotected true = (h', .ok ()) ∧ h'.flags 4 = Flags.readOnlyValue := by
  obtain ⟨h', a, _, b, _⟩ := C55_live_set_value demo_tidy.reach 0 unprotected (fun h h' i e => by simp only [unprotected, Heap.flags, e]) true (by decide +kernel) (by
    intro y hy
    have hb := (mem_flagTargets demo_tidy.reach 0 _ true y).2 hy
    clear hy; revert y
    decide +kernel)
  refine ⟨h', a, ?_⟩
  rw [(b 4 ?_).1]
  · decide
  · exact (mem_flagTargets demo_tidy.reach 0 _ true 4).1 (by decide +kernel)

/-- the filter "the value of my parent is protected"; it lets the root through -/
def parentProtected (h : Heap) (i : Id) : Bool :=
  match h.par i with
  | none => true
  | some p => (h.flags p).has Flags.readOnlyValue

/-- Outside the hypothesis the order shows: a filter that looks at the parent selects nothing below the start item if asked beforehand, but everything when asked while the flags are being written. -/
theorem C55_live_parent : parentProtected demo 1 = false ∧ parentProtected demo 4 = false ∧
    (liveSetValueReadOnly demo 0 parentProtected true).1.flags 1 = Flags.readOnlyValue ∧ (liveSetValueReadOnly demo 0 parentProtected true).1.flags 4 = Flags.readOnlyValue ∧
    (deepSetValueReadOnly demo 0 (some (parentProtected demo)) true).1.flags 1 = 0#6 := by
  decide +kernel

end ITree
