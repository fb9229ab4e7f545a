import Verif.Proofs.Coupled
import Verif.Props.LoadLinks
import Verif.Props.Size
import Verif.Props.FindLink
/-
C80: coupled objects.
-/
namespace ITree
variable {α : Type}

/-- C80. `x.coupled_object` is the object given by the last `x.set_coupled_object`, whatever the protection of `x`; other items keep theirs; without any it is None. -/
theorem C80_set (c : Couples α) (x : Id) (o : Option α) : coupledObject (setCoupled c x o) x = o ∧ (∀ i, i ≠ x → coupledObject (setCoupled c x o) i = coupledObject c i) ∧
    coupledObject (fun _ => none : Couples α) x = none := by
  refine ⟨by simp [coupledObject, setCoupled], fun i hi => by simp [coupledObject, setCoupled, hi], rfl⟩

/-- the tree calls of a history -/
def CAct.calls : List (CAct α) → List Call
  | [] => []
  | .call a :: as => a :: CAct.calls as
  | .couple _ _ :: as => CAct.calls as

theorem runC_heap (ms : ModelSet) : ∀ (as : List (CAct α)) (h : Heap) (c : Couples α), (runC ms h c as).1 = run ms h (CAct.calls as)
  | [], _, _ => rfl
  | .call a :: as, h, c => by rw [runC, CAct.calls, run]; exact runC_heap ms as _ c
  | .couple x o :: as, h, c => by rw [runC, CAct.calls]; exact runC_heap ms as h _

/-- C80. Coupling is invisible for the tree: after any history of calls and couplings the trees are those after the calls alone. -/
theorem C80_invisible (ms : ModelSet) (h : Heap) (c : Couples α) (as : List (CAct α)) : (runC ms h c as).1 = run ms h (CAct.calls as) := runC_heap ms as h c

theorem runC_keep (ms : ModelSet) (x : Id) : ∀ (as : List (CAct α)) (h : Heap) (c : Couples α), (∀ o, .couple x o ∉ as) → (runC ms h c as).2 x = c x
  | [], _, _, _ => rfl
  | .call a :: as, h, c, hn => by rw [runC]; exact runC_keep ms x as _ c fun o ho => hn o (List.mem_cons_of_mem _ ho)
  | .couple y o :: as, h, c, hn => by
    rw [runC, runC_keep ms x as h _ fun o ho => hn o (List.mem_cons_of_mem _ ho), setCoupled, if_neg]
    rintro rfl; exact hn o (by simp)

theorem runC_append (ms : ModelSet) : ∀ (as bs : List (CAct α)) (h : Heap) (c : Couples α), runC ms h c (as ++ bs) = runC ms (runC ms h c as).1 (runC ms h c as).2 bs
  | [], _, _, _ => rfl
  | .call a :: as, bs, h, c => by rw [List.cons_append, runC, runC, runC_append]
  | .couple x o :: as, bs, h, c => by rw [List.cons_append, runC, runC, runC_append]

/-- C80. The object of `x` after any history is the last one coupled with `x`, whatever calls (moves, renaming, sorting, protection, …) were made in between; an item never coupled, a copy for example, has none. -/
theorem C80_history (ms : ModelSet) (h : Heap) (c : Couples α) (x : Id) (as bs : List (CAct α)) (hn : ∀ o, .couple x o ∉ bs) :
    (∀ o, coupledObject (runC ms h c (as ++ .couple x o :: bs)).2 x = o) ∧ (c x = none → coupledObject (runC ms h c bs).2 x = none) := by
  refine ⟨fun o => ?_, fun hc => ?_⟩
  · rw [coupledObject, runC_append, runC, runC_keep ms x bs _ _ hn]; simp [setCoupled]
  · rw [coupledObject, runC_keep ms x bs _ _ hn, hc]

/-- an item is coupled, moved, protected and renamed; its copy 3 has no object -/
example : coupledObject (runC ms0 Heap.empty (fun _ => none) [.call (.new (.str "R") .noValue [] 0#6), .call (.new (.str "A") .noValue [] 0#6), .call (.append 0 (.item 1)), .couple 1 (some 7),
    .call (.new (.str "B") .noValue [] 0#6), .call (.append 0 (.item 2)), .call (.rename 1 (.str "C")), .call (.setTreeReadOnly 1), .call (.copy 1)]).2 1 = some 7 :=
  (C80_history ms0 _ _ 1 [_, _, _] [_, _, _, _, _] (by simp)).1 (some 7)

/-! ### equal -/

/-- the attributes `_coupled` are the same wherever both trees have an item when they are walked in parallel -/
def SameCouples (c : Couples α) (A B : Tree) : Prop := c A.id = c B.id ∧ ∀ s ∈ A.deep.zip B.deep, c s.1.id = c s.2.id

theorem sameCoupled_iff [DecidableEq α] (c : Couples α) (i j : Id) : sameCoupled c i j = true ↔ c i = c j := by
  unfold sameCoupled
  cases c i <;> cases c j <;> simp

theorem equalLoopC_eq [DecidableEq α] (c : Couples α) (b : Bool) (l : List (Tree × Tree)) : equalLoopC c b l = (equalLoop b l && l.all fun s => sameCoupled c s.1.id s.2.id) := by
  induction l with
  | nil => rfl
  | cons s l ih =>
    obtain ⟨x, y⟩ := s
    simp only [equalLoopC, equalLoop, List.all_cons, ih]
    cases sameCoupled c x.id y.id <;> cases (b && x.flags != y.flags) <;> cases argsEq x y <;> cases valueEqual x.value y.value <;> simp

/-- C80. `t.equal(u, check_coupled=True, …)` holds exactly when `t.equal(u, …)` holds and the coupled objects of the two items and of all pairs of items met when walking both trees in parallel are the same.
(Missing: `never coupled` and `coupled with None` count as different, see `C80_none_wrong`.) -/
theorem C80_C59_equal_partial [DecidableEq α] (h : Heap) (c : Couples α) (a b : Id) (flagsToo : Bool) :
    equalCoupled h c a b flagsToo = true ↔ equalItem h a b flagsToo = true ∧ SameCouples c (h.tree a) (h.tree b) := by
  unfold equalCoupled equalItem SameCouples
  rw [tree_id, tree_id]
  by_cases hab : a = b
  · subst hab
    simp only [if_true, true_and, true_iff]
    intro s hs
    obtain ⟨n, hn⟩ := List.getElem?_of_mem hs
    rw [List.getElem?_zip_eq_some] at hn
    obtain ⟨e1, e2⟩ := hn
    rw [e1] at e2; simp only [Option.some.injEq] at e2; rw [e2]
  · simp only [if_neg hab, equalLoopC_eq]
    rw [← sameCoupled_iff c a b]
    have hall : (∀ s ∈ (h.tree a).deep.zip (h.tree b).deep, c s.1.id = c s.2.id) ↔ ((h.tree a).deep.zip (h.tree b).deep).all (fun s => sameCoupled c s.1.id s.2.id) = true := by
      simp only [List.all_eq_true, sameCoupled_iff]
    rw [hall]
    generalize ((h.tree a).deep.zip (h.tree b).deep).all (fun s => sameCoupled c s.1.id s.2.id) = q
    generalize equalLoop flagsToo ((h.tree a).deep.zip (h.tree b).deep) = r
    generalize (flagsToo && h.flags a != h.flags b) = t
    generalize ((h.tree a).tag != (h.tree b).tag || (h.tree a).kids.length != (h.tree b).kids.length || !valueEqual (h.tree a).value (h.tree b).value) = u
    cases sameCoupled c a b <;> cases t <;> cases u <;> cases r <;> cases q <;> simp

/-- two equal items -/
def pairHeap : Heap := run ms0 Heap.empty [.new (.other 0) .noValue [] 0#6, .new (.other 0) .noValue [] 0#6]

theorem pairHeap_equal : equalItem pairHeap 0 1 false = true := by
  have e0 : pairHeap.tree 0 = .node 0 (.other 0) .noValue 0#6 none [] := rfl
  have e1 : pairHeap.tree 1 = .node 1 (.other 0) .noValue 0#6 none [] := rfl
  simp [equalItem, e0, e1, Tree.tag, Tree.kids, Tree.value, Tree.deep, Tree.preL, valueEqual, equalLoop, Val.ty, Val.pyEq]

example : equalCoupled pairHeap (setCoupled (setCoupled (fun _ => none) 0 (some 5)) 1 (some 5)) 0 1 false = true ∧ equalCoupled pairHeap (setCoupled (setCoupled (fun _ => none) 0 (some 5)) 1 (some 6)) 0 1 false = false := by
  refine ⟨(C80_C59_equal_partial _ _ 0 1 false).2 ⟨pairHeap_equal, rfl, ?_⟩, ?_⟩
  · intro s hs
    rw [show (pairHeap.tree 0).deep = [] from rfl] at hs
    simp at hs
  · rw [Bool.eq_false_iff]
    intro e
    have := ((C80_C59_equal_partial _ _ 0 1 false).1 e).2.1
    exact absurd this (by decide)

/-- C80, negation: two equal items, one never coupled and one coupled with None, have the same coupled object None, but `equal(…, check_coupled=True)` denies it. -/
theorem C80_none_wrong : ∃ c : Couples Nat, coupledObject c 0 = coupledObject c 1 ∧ equalItem pairHeap 0 1 false = true ∧ equalCoupled pairHeap c 0 1 false = false := by
  refine ⟨setCoupled (fun _ => none) 1 none, rfl, pairHeap_equal, ?_⟩
  rw [Bool.eq_false_iff]
  intro e
  have := ((C80_C59_equal_partial _ _ 0 1 false).1 e).2.1
  exact absurd this (by decide)

/-! ### load_links -/

/-- C80. Coupled objects do not influence what `load_links` does to the trees. -/
theorem C80_C74_load_same (env : LinkEnv) (truthy : α → Bool) (force : Bool) (n : Nat) (h : Heap) (c : Couples α) (p : Id) :
    ((loadLinksC env truthy force n h c p).1, (loadLinksC env truthy force n h c p).2.2) = loadLinks env force n h p := loadLinksC_plain env truthy force n h c p

/-- `o` is the object of the linked child of `p` with the key `k`, and counts as true -/
def KeptObject (truthy : α → Bool) (h : Heap) (c : Couples α) (p : Id) (k : LKey) (o : α) : Prop :=
  ∃ x, (k, x) ∈ numbered h p ∧ (h.flags x).has Flags.linked = true ∧ coupledObject c x = some o ∧ truthy o = true

theorem given_iff {truthy : α → Bool} {h g : Heap} (W : WF h) (hf : ∀ i, g.flags i = h.flags i) (c : Couples α) (p : Id) (k : LKey) :
    (∀ o, given (oldCouples truthy g c (numbered h p)) k = some (some o) ↔ KeptObject truthy h c p k o) ∧ given (oldCouples truthy g c (numbered h p)) k ≠ some none := by
  refine ⟨fun o => ?_, by unfold given; cases (oldCouples truthy g c (numbered h p)).find? fun e => e.1 = k <;> simp⟩
  have hmem : ∀ e : LKey × α, e ∈ oldCouples truthy g c (numbered h p) ↔ KeptObject truthy h c p e.1 e.2 := by
    intro e
    unfold oldCouples KeptObject
    rw [List.mem_filterMap]
    constructor
    · rintro ⟨⟨k', x⟩, hx, he⟩
      split at he
      · next hl =>
        cases ho : coupledObject c x with
        | none => rw [ho] at he; cases he
        | some o' =>
          rw [ho] at he
          simp only at he
          split at he
          · next ht => cases he; exact ⟨x, hx, by rw [← hf]; exact hl, ho, ht⟩
          · cases he
      · cases he
    · rintro ⟨x, hx, hl, ho, ht⟩
      refine ⟨(e.1, x), hx, ?_⟩
      rw [hf, if_pos hl, ho]
      simp only [ht, if_true]
  unfold given
  constructor
  · intro hg
    cases hfd : (oldCouples truthy g c (numbered h p)).find? fun e => e.1 = k with
    | none => rw [hfd] at hg; cases hg
    | some e =>
      rw [hfd] at hg
      simp only [Option.map_some, Option.some.injEq] at hg
      have h1 := (hmem e).1 (List.mem_of_find?_eq_some hfd)
      have h2 := List.find?_some hfd
      simp only [decide_eq_true_eq] at h2
      rw [h2, hg] at h1; exact h1
  · intro hk
    have hm := (hmem (k, o)).2 hk
    cases hfd : (oldCouples truthy g c (numbered h p)).find? fun e => e.1 = k with
    | none =>
      have := List.find?_eq_none.1 hfd _ hm
      simp at this
    | some e =>
      have h1 := (hmem e).1 (List.mem_of_find?_eq_some hfd)
      have h2 := List.find?_some hfd
      simp only [decide_eq_true_eq] at h2
      obtain ⟨x, hx, -, ho, -⟩ := hk
      obtain ⟨x', hx', -, ho', -⟩ := h1
      rw [h2] at hx'
      have : x' = x := Option.some.inj (((mem_numbered_iff W).1 hx').2.2.symm.trans ((mem_numbered_iff W).1 hx).2.2)
      rw [this, ho] at ho'
      simp only [Option.some.injEq] at ho'
      simp [ho']

/-- C80, full statement: after `p.load_links()` every linked item that replaces a linked item with the same path below `p` has its coupled object.  Proved for the children of `p` and objects that count as true.  `out`
lists the children of `p` afterwards, each with the key of the source it stands for: a new child with the key `k` has the object of the old linked child with the key `k`, if there was one that counts as true, and None
otherwise; the items that existed before keep theirs; new items further below have None.
(Missing: objects that count as false, `C80_falsy_wrong`; items further below, `C80_deep_wrong`.) -/
theorem C80_C74_reload_partial (env : LinkEnv) (truthy : α → Bool) (force : Bool) (n : Nat) (h g : Heap) (c : Couples α) (p s : Id) (lk : LinkSt) (hl : (h.node p).link = some lk) (ha : force = true ∨ lk.loaded = false)
    (hf : env.find h p = (g, .ok s)) (L : Loadable g p s) (hc : ∀ i, g.next ≤ i → c i = none) :
    ∃ h' c', loadLinksC env truthy force (n + 1) h c p = (h', c', .ok true) ∧ (∀ i, i < g.next → c' i = c i) ∧
      (∃ out : List (Id × Option LKey), h'.kids p = out.map Prod.fst ∧ out.filterMap Prod.snd = (numbered g s).map Prod.fst ∧
        ∀ y k, (y, some k) ∈ out → g.next ≤ y → ∀ o, coupledObject c' y = some o ↔ KeptObject truthy g c p k o) ∧
      ∀ z, Below h' p z → g.next ≤ z → z ∉ h'.kids p → coupledObject c' z = none := by
  obtain ⟨h', nid, e, T, g1, n1, C1, nx, ks, P, ids⟩ := takeOver_spec (load := loadLinks env force n) L.wf L.forest L.lt L.apart L.plain L.real L.keys
  have e0 : (loadLinksC env truthy force (n + 1) h c p).plain = (h', .ok true) := by rw [loadLinksC_plain]; exact (loadLinks_active hl ha hf).trans e
  have act : loadActive env h p lk force = (h, .ok true) := by
    rw [loadActive, if_pos]
    rcases ha with h | h <;> simp [h]
  have run : loadLinksC env truthy force (n + 1) h c p = takeOverC truthy (loadLinksC env truthy force n) g c p s := by
    simp only [loadLinksC, hl, act, hf]
  obtain ⟨t1, t2, t3⟩ := loadLoopC_table (loadC := loadLinksC env truthy force n) (load := loadLinks env force n) (d := oldCouples truthy g1 c (numbered g p)) (numbered g s) c (localItems g1 (numbered g p)) [] P
  have tab : (loadLinksC env truthy force (n + 1) h c p).2.1 =
      (loadLoopC (loadLinksC env truthy force n) (oldCouples truthy g1 c (numbered g p)) p s (dropKids g1 p) c ((numbered g s).map (·.2)) (localItems g1 (numbered g p)) []).2.1 := by
    rw [run, takeOverC, n1]
    simp only [ks]
    split <;> rename_i hq <;> simp only
  rw [← tab] at t1 t2 t3
  generalize loadLinksC env truthy force (n + 1) h c p = R at *
  obtain ⟨h'', c', r⟩ := R
  simp only [CRes.plain, Prod.mk.injEq] at e0
  obtain ⟨rfl, rfl⟩ := e0
  simp only at t1 t2 t3
  have fresh : ∀ e ∈ numbered g s, g.next ≤ nid e.1 := fun e he => by
    obtain ⟨U, u1, -, -, u4⟩ := T.new e he
    rw [← u1]; exact (u4 U.id (by cases U; simp [Tree.id, Tree.ids_node])).1
  have gv1 := fun k => (given_iff (truthy := truthy) L.wf (fun i => C1.flags i) c p k).1
  have hst := C46_order (oldKids g p) ((numbered g s).map Prod.fst)
  refine ⟨h'', c', rfl, fun i hi => t1 i (by rw [nx]; exact hi), ⟨(mergeKids (oldKids g p) ((numbered g s).map Prod.fst)).map fun o => (resolve nid o, o.stands), ?_, ?_, ?_⟩, ?_⟩
  · rw [T.kids_p, List.map_map]; rfl
  · rw [List.filterMap_map]; exact hst
  · intro y k hy hlt o
    simp only [List.mem_map, Prod.mk.injEq] at hy
    obtain ⟨out, ho, rfl, hs⟩ := hy
    have hk : k ∈ (numbered g s).map Prod.fst := by rw [← hst]; exact List.mem_filterMap.2 ⟨out, ho, hs⟩
    cases out with
    | new k' =>
      simp only [LOut.stands, Option.some.injEq] at hs; subst hs
      obtain ⟨e, he, rfl⟩ := List.mem_map.1 hk
      obtain ⟨pre, post, hh⟩ := List.append_of_mem he
      have := t2 pre e post hh
      rw [← ids pre e post hh, hc _ (fresh e he), Option.or_none] at this
      simp only [resolve]
      rw [coupledObject, this, ← gv1 e.1 o]
      cases hg : given (oldCouples truthy g1 c (numbered g p)) e.1 with
      | none => simp
      | some w => simp
    | old z k' b =>
      exfalso
      obtain ⟨f, hf⟩ := localEntries_mem _ _ _ _ (mergeLoop_entry _ _ _ _ _ _ ho)
      simp only [oldKids, List.mem_map, Prod.mk.injEq] at hf
      obtain ⟨e, he, e1, _, e2⟩ := hf
      have hz : z ∈ g.kids p := by rw [← e2, ← numbered_items g p]; exact List.mem_map_of_mem (f := Prod.snd) he
      have := L.wf.kids_lt p z hz
      simp only [resolve] at hlt
      omega
  · intro z hz hlt hnk
    rw [coupledObject, t3 z fun pre e post hh => ?_, hc z hlt]
    rw [← ids pre e post hh]
    rintro rfl
    have he : e ∈ numbered g s := by rw [hh]; simp
    have hp := T.free e he hnk
    cases hz with
    | refl => have := L.lt; omega
    | step _ hq => have := par_child T.wf hq; rw [hp] at this; cases this

/-- a root 0 with the child 1, which has the children 2 and 3 (with the child 4), and a link root 5 that refers to 1 -/
def coupHeap : Heap := run ms0 Heap.empty [.new (.str "R") .noValue [] 0#6, .new (.str "A") .noValue [] 0#6, .append 0 (.item 1), .new (.str "B") .noValue [] 0#6, .append 1 (.item 2), .new (.str "C") .noValue [] 0#6,
  .append 1 (.item 3), .new (.str "D") .noValue [] 0#6, .append 3 (.item 4), .newLink (.str "L") .noValue [] 0#6 none [.int 0], .append 0 (.item 5)]
theorem coupHeap_tidy : Tidy ms0 coupHeap := tidy_run _ .empty (by decide +kernel)
/-- … after loading the link: the link root 5 has the linked children 6 and 7 (with the child 8) -/
def coupLoaded : Heap := (loadLinks (linkEnv noFiles) false 201 coupHeap 5).1
theorem coupLoaded_tidy : Tidy ms0 coupLoaded := by
  refine .load noFiles false 201 5 coupHeap_tidy ⟨by decide +kernel, { path := [.int 0] }, by decide +kernel, Or.inl rfl, Or.inr (Or.inl ⟨by decide +kernel, Or.inr rfl, fun s L => ?_⟩)⟩
  have e1 := ((C76_find noFiles coupHeap_tidy.reach.core.wf (p := 5) (lk := { path := [.int 0] }) (by decide +kernel) (Or.inl rfl)).2 s).2 L
  have e2 : (getTarget noFiles coupHeap 5).2.toOption = some 1 := by decide +kernel
  rw [e1] at e2
  cases e2
  decide +kernel

/-- no objects but `o` at the linked child 7 -/
def coup7 (o : Nat) : Couples Nat := setCoupled (fun _ => none) 7 (some o)

/-- the children of 5, those of the last of them, and the coupled objects of both after `load_links(force=True)`; 0 counts as false -/
def reloaded (c : Couples Nat) : List Id × List Id × List (Option Nat) :=
  let r := loadLinksC (linkEnv noFiles) (fun o => o != 0) true 201 coupLoaded c 5
  (r.1.kids 5, r.1.kids 10, (r.1.kids 5 ++ r.1.kids 10).map (coupledObject r.2.1))

/-- the object 9 of 7 is handed over to 10, which replaces 7 -/
example : reloaded (coup7 9) = ([6, 10], [11], [none, some 9, none]) := by decide +kernel

/-- `coupLoaded` meets the hypotheses of `C80_C74_reload_partial` -/
example : Loadable coupLoaded 5 1 ∧ (∀ i, coupLoaded.next ≤ i → coup7 9 i = none) ∧ KeptObject (fun o => o != 0) coupLoaded (coup7 9) 5 (.str "C", 0) 9 := by
  have hnx : coupLoaded.next = 9 := by decide +kernel
  refine ⟨⟨coupLoaded_tidy.reach.core.wf, coupLoaded_tidy.reach.core.forest, by decide +kernel, by decide +kernel, by decide +kernel, ?_, by decide +kernel⟩, fun i hi => ?_, 7, by decide +kernel, by decide +kernel, rfl, rfl⟩
  · intro c hc
    have hk : coupLoaded.kids 1 = [2, 3] := by decide +kernel
    rw [hk] at hc
    simp only [List.mem_cons, List.not_mem_nil, or_false] at hc
    rcases hc with rfl | rfl
    · exact ⟨.str "B", 0, by rfl⟩
    · exact ⟨.str "C", 0, by rfl⟩
  · rw [hnx] at hi
    simp only [coup7, setCoupled]
    rw [if_neg (by omega)]

/-- C80, negation: an object that counts as false (0, an empty list, …) is lost when the link is loaded again: 7 with the object 0 is replaced by 10, which has None. -/
theorem C80_falsy_wrong : Tidy ms0 coupLoaded ∧ (coupLoaded.flags 7).has Flags.linked = true ∧ coupledObject (coup7 0) 7 = some 0 ∧ reloaded (coup7 0) = ([6, 10], [11], [none, none, none]) :=
  ⟨coupLoaded_tidy, by decide +kernel, rfl, by decide +kernel⟩

/-- C80, negation: objects of linked items further below are lost: 8, the child of 7, is replaced by 11, the child of 10, which has None. -/
theorem C80_deep_wrong : Tidy ms0 coupLoaded ∧ coupLoaded.kids 7 = [8] ∧ (coupLoaded.flags 8).has Flags.linked = true ∧ reloaded (setCoupled (fun _ => none) 8 (some 9)) = ([6, 10], [11], [none, none, none]) :=
  ⟨coupLoaded_tidy, by decide +kernel, by decide +kernel, by decide +kernel⟩

end ITree
