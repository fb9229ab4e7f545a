import Verif.Model.GetBy
import Verif.Props.Enumerate
import Verif.Props.Getter
/-
C48: the specific getters by index list, tag, family index slice and list.
-/
namespace ITree
variable {ms : ModelSet} {h : Heap}

theorem mapM_pyGet {l : List Id} : ∀ (il : List Int), il.mapM (getOr l) =
    if ∀ i ∈ il, (pyGet l i).isSome then .ok (il.filterMap (pyGet l)) else .error .index := by
  intro il
  induction il with
  | nil => rfl
  | cons i il ih =>
    rw [List.mapM_cons, ih]
    cases e : pyGet l i with
    | none => simp [getOr, e, Bind.bind, Except.bind]
    | some c =>
      by_cases hh : ∀ j ∈ il, (pyGet l j).isSome
      · have : ∀ j ∈ i :: il, (pyGet l j).isSome := by simpa [e] using hh
        rw [if_pos hh, if_pos this]; simp [getOr, e, Bind.bind, Except.bind, pure, Except.pure]
      · have : ¬ ∀ j ∈ i :: il, (pyGet l j).isSome := by simpa [e] using hh
        rw [if_neg hh, if_neg this]; simp [getOr, e, Bind.bind, Except.bind]

/-- C48. `get.by_idx_list(il)`: for an item with children exactly the children at these indexes, in the order of the list; any index out of range: IndexError.  Ellipsis: all children. -/
theorem C48_by_idx_list (h : Heap) (p : Id) (hk : h.kids p ≠ []) (il : List Int) :
    byIdxList h p (some il) [] = (if ∀ i ∈ il, (pyGet (h.kids p) i).isSome then .ok (il.filterMap (pyGet (h.kids p))) else .error .index) ∧ byIdxList h p none [] = .ok (h.kids p) := by
  constructor
  · simp only [byIdxList, if_neg hk, pickAll, mapM_pyGet]
    split <;> simp_all [idxListLoop]
  · simp [byIdxList, pickAll, hk, idxListLoop]

/-- the items one level of an index list selects -/
def picks (h : Heap) (il : Option (List Int)) (q : Id) : List Id :=
  match il with
  | none => h.kids q
  | some il => il.filterMap (pyGet (h.kids q))

theorem idxListLevel_ok {r r2 : List Id} {il : Option (List Int)} (e : idxListLevel h r il = .ok r2) : r2 = r.flatMap (picks h il) := by
  cases il with
  | none => simp only [idxListLevel, Except.ok.injEq] at e; rw [← e]; rfl
  | some il =>
    simp only [idxListLevel] at e
    have key : ∀ (ps : List (Id × Int)) (r2 : List Id), (ps.mapM fun e => getOr (h.kids e.1) e.2) = .ok r2 →
        r2 = ps.filterMap fun e => pyGet (h.kids e.1) e.2 := by
      intro ps
      induction ps with
      | nil => intro r2 e; simp [pure, Except.pure] at e; simp [← e]
      | cons a ps ih =>
        intro r2 e
        rw [List.mapM_cons] at e
        cases h1 : pyGet (h.kids a.1) a.2 with
        | none => simp only [getOr, h1] at e; simp [Bind.bind, Except.bind] at e
        | some c =>
          simp only [getOr, h1] at e
          simp only [Bind.bind, Except.bind] at e
          split at e
          · cases e
          · next r3 e3 =>
            simp only [pure, Except.pure, Except.ok.injEq] at e
            rw [← e, ih _ e3]; simp [h1]
    rw [key _ _ e]
    clear e key
    induction r with
    | nil => rfl
    | cons q r ih =>
      rw [List.flatMap_cons, List.filterMap_append, ih, List.flatMap_cons]
      congr 1
      rw [List.filterMap_map]
      simp only [picks]
      clear ih
      induction il with
      | nil => rfl
      | cons i il ih2 =>
        rw [List.filter_cons]
        split
        · next hi => simp only [List.filterMap_cons, Function.comp]; rw [← ih2]; rfl
        · next hi =>
          have : pyGet (h.kids q) i = none := by
            simp only [decide_eq_true_eq] at hi
            simp only [pyGet]
            have h1 : 0 ≤ i := by omega
            rw [if_pos h1, List.getElem?_eq_none]
            omega
          simp only [List.filterMap_cons, this]; exact ih2

/-- C48. `get.by_idx_list(il1, il2, …)`: if it returns, the result is collected level by level, in order, taking below every item found so far the children at the given indexes (indexes a
single item does not have are skipped).  It does not always return: `C48_by_idx_list_wrong`. -/
theorem C48_by_idx_list_path_partial (h : Heap) (p : Id) (il : Option (List Int)) (path : List (Option (List Int))) (l : List Id) (e : byIdxList h p il path = .ok l) :
    l = (il :: path).foldl (fun r il => r.flatMap (picks h il)) [p] := by
  simp only [byIdxList] at e
  split at e
  · cases e
  · have hr : ∀ r, pickAll (h.kids p) il = .ok r →
        r = picks h il p := by
      intro r hr
      cases il with
      | none => simp only [pickAll, Except.ok.injEq] at hr; rw [← hr]; rfl
      | some il =>
        simp only [pickAll, mapM_pyGet] at hr
        split at hr
        · simp only [Except.ok.injEq] at hr; rw [← hr]; rfl
        · cases hr
    have loop : ∀ (path : List (Option (List Int))) (r l : List Id), idxListLoop h r path = .ok l → l = path.foldl (fun r il => r.flatMap (picks h il)) r := by
      intro path
      induction path with
      | nil => intro r l e; simp only [idxListLoop, Except.ok.injEq] at e; exact e.symm
      | cons il ils ih =>
        intro r l e
        simp only [idxListLoop] at e
        split at e
        · cases e
        · next r2 e2 =>
          split at e
          · cases e
          · rw [ih _ _ e, idxListLevel_ok e2]; rfl
    split at e
    · cases e
    · next r er =>
      rw [loop _ _ _ e, hr r er]
      simp

example : byIdxList demo 0 (some [-1, 0]) [] = .ok [5, 1] ∧ byIdxList demo 0 none [some [0, 7]] = .ok [4] ∧ byIdxList demo 0 (some [4]) [] = .error .index := by decide +kernel

/-- C48, the code against the expectation: an index a single item does not have is skipped when it is positive, and ends the whole call with IndexError when it is negative. -/
theorem C48_by_idx_list_wrong : byIdxList demo 0 none [some [0]] = .ok [4] ∧ byIdxList demo 0 none [some [-1]] = .error .index := by decide +kernel

/-! ### families -/

theorem getFam_eq (H : Reach ms h) {p : Id} (hk : h.kids p ≠ []) (t : Tag) : getFam h p t = if withTag h p t = [] then .error .key else .ok (withTag h p t) := by
  obtain ⟨F, hb, _, O⟩ := H.core.wf.bound hk
  have := O.get t
  simp only [getFam, hb]
  have e : famView h p t = withTag h p t := rfl
  rw [e] at this
  by_cases hw : withTag h p t = []
  · rw [if_pos hw] at this ⊢; rw [this]
  · rw [if_neg hw] at this ⊢; rw [this]

/-- C48. For an item with children: `get.by_tag(t)` delivers exactly the children with this tag in item order, KeyError if there are none; `get.by_tag_idx_slice((t, s))` and
`get.by_tag_idx_list((t, il))` a slice resp. the given positions of that list; `get.by_tags(ts)` these lists one after the other. -/
theorem C48_by_tag (H : Reach ms h) {p : Id} (hk : h.kids p ≠ []) (t : Tag) :
    byTag h p t false = (if withTag h p t = [] then .error .key else .ok (withTag h p t)) ∧
    (withTag h p t ≠ [] → ∀ s r, pySlice (withTag h p t) s = some r → byTagIdxSlice h p t s false = if r = [] then .error .key else .ok r) ∧
    (withTag h p t ≠ [] → ∀ il, byTagIdxList h p t (some il) false = if ∀ i ∈ il, (pyGet (withTag h p t) i).isSome then .ok (il.filterMap (pyGet (withTag h p t))) else .error .index) ∧
    (withTag h p t ≠ [] → byTagIdxList h p t none false = .ok (withTag h p t)) ∧
    (∀ ts : List Tag, byTags h p ts [] = if ∀ t ∈ ts, withTag h p t ≠ [] then .ok (ts.flatMap (withTag h p)) else .error .key) := by
  refine ⟨?_, fun hw s r hs => ?_, fun hw il => ?_, fun hw => ?_, fun ts => ?_⟩
  · simp only [byTag, getFam_eq H hk]
    by_cases hw : withTag h p t = []
    · simp only [if_pos hw]
    · simp only [if_neg hw, Bool.false_eq_true, if_false]
  · simp [byTagIdxSlice, getFam_eq H hk, hw, hs]
  · simp only [byTagIdxList, getFam_eq H hk, if_neg hw, pickAll, mapM_pyGet]
    split <;> simp_all
  · simp [byTagIdxList, pickAll, getFam_eq H hk, hw]
  · simp only [byTags, if_neg hk]
    have key : ts.mapM (getFam h p) = if ∀ t ∈ ts, withTag h p t ≠ [] then .ok (ts.map (withTag h p)) else .error .key := by
      induction ts with
      | nil => rfl
      | cons t ts ih =>
        rw [List.mapM_cons, ih, getFam_eq H hk]
        by_cases hw : withTag h p t = []
        · have : ¬ ∀ t' ∈ t :: ts, withTag h p t' ≠ [] := fun hh => hh t (by simp) hw
          rw [if_pos hw, if_neg this]; rfl
        · by_cases ht : ∀ t ∈ ts, withTag h p t ≠ []
          · have : ∀ t' ∈ t :: ts, withTag h p t' ≠ [] := List.forall_mem_cons.2 ⟨hw, ht⟩
            rw [if_neg hw, if_pos ht, if_pos this]; simp [Bind.bind, Except.bind, pure, Except.pure]
          · have : ¬ ∀ t' ∈ t :: ts, withTag h p t' ≠ [] := fun hh => ht (List.forall_mem_cons.1 hh).2
            rw [if_neg hw, if_neg ht, if_neg this]; simp [Bind.bind, Except.bind]
    rw [key]
    split
    · next e => split at e
                · cases e
                · simp only [Except.error.injEq] at e; subst e; rw [if_neg]; assumption
    · next e => split at e
                · next ht => simp only [Except.ok.injEq] at e; subst e; rw [if_pos ht]; simp [List.flatMap]
                · cases e

example : byTag demo 0 (.other 1) false = .ok [1, 3] ∧ byTagIdxSlice demo 0 (.other 1) ⟨some 1, none, none⟩ false = .ok [3] ∧ byTagIdxList demo 0 (.other 1) (some [-1, 0]) false = .ok [3, 1] ∧
    byTags demo 0 [.other 2, .other 1] [] = .ok [2, 1, 3] ∧ byTag demo 0 (.other 9) false = .error .key := by decide +kernel
example : byTag demo 0 (.other 1) false = if withTag demo 0 (.other 1) = [] then .error .key else .ok (withTag demo 0 (.other 1)) := (C48_by_tag demo_tidy.reach (by decide) _).1

/-- C48, the code against the expectation: with a path the four getters by tag never return, whatever the tree and the arguments; `get` with the same path does. -/
theorem C48_tag_path_wrong (h : Heap) (p : Id) (t : Tag) (s : PySlice) (il : Option (List Int)) (ts : List Tag) (path : List Nat) (hp : path ≠ []) :
    (∃ e, byTag h p t true = .error e) ∧ (∃ e, byTagIdxSlice h p t s true = .error e) ∧ (∃ e, byTagIdxList h p t il true = .error e) ∧ (∃ e, byTags h p ts path = .error e) ∧
    getPath demo 0 (.tags [.other 1]) [.int 0] = .ok (.list [.item 4]) := by
  have hf : ∀ b, ∃ e, famPath b = .error e := by intro b; cases b <;> exact ⟨_, rfl⟩
  refine ⟨?_, ?_, ?_, ?_, by decide +kernel⟩
  · simp only [byTag]
    split
    · exact ⟨_, rfl⟩
    · next fam _ => obtain ⟨e, he⟩ := hf (decide (fam ≠ [])); exact ⟨.key, by simp only [if_true, he]⟩
  · simp only [byTagIdxSlice]
    split
    · exact ⟨_, rfl⟩
    · split
      · exact ⟨_, rfl⟩
      · exact hf _
  · simp only [byTagIdxList]
    split
    · exact ⟨_, rfl⟩
    · split
      · exact ⟨_, rfl⟩
      · exact hf _
  · simp only [byTags, hp, if_false]
    split
    · exact ⟨_, rfl⟩
    · split
      · exact ⟨_, rfl⟩
      · exact hf _

/-- C48, C16, the code against the expectation: after `clear` the item has no children, but the getters by tag still deliver the former ones. -/
theorem C48_C16_cleared_wrong : let r := clear demo 0 false
    r.2 = .ok () ∧ r.1.kids 0 = [] ∧ byTag r.1 0 (.other 1) false = .ok [1, 3] ∧ byTagIdx r.1 0 [(.other 2, 0)] = .ok 2 := by decide +kernel

end ITree
