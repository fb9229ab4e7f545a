import Verif.Props.Consistency
import Verif.Proofs.KeepPar
/-
C03-C08: adding items.  `h` is any state reachable by allowed calls, `h'` the state after the call.
-/
namespace ITree

/-- Everything but the children of `p` and the parent of `x` is as before for all items that existed before the call. -/
abbrev OnlyPlaced (h h' : Heap) (p x : Id) : Prop := Frame h h' (· = p) (· = x)

theorem insertIdx_end (l : List Id) (x : Id) : l.insertIdx l.length x = l ++ [x] := by
  rw [insertIdx_split _ _ _ (Nat.le_refl _)]; simp

/-- C03. `t.append(x)` of a free item on an unprotected item: succeeds, `x` is the last child, the other children keep their order, `x.parent`
is `t`, nothing else changes, and the family view stays aligned with the item order. -/
theorem C03_append_item {ms : ModelSet} {h : Heap} (R : Reach ms h) {p x : Id} (hp : p < h.next) (hx : x < h.next)
    (hpr : h.isProtected p = false) (hfree : h.par x = none) :
    ∃ h', append h p (.item x) = (h', .ok x) ∧ h'.kids p = h.kids p ++ [x] ∧ h'.par x = some p ∧ OnlyPlaced h h' p x ∧
      ∀ t, getItem h' p (.tag t) = (if (h'.kids p).filter (fun c => h'.tag c = t) = [] then .error .key
        else .ok (.many ((h'.kids p).filter fun c => h'.tag c = t))) := by
  have hxp : (h.node x).parent = none := by
    cases hh : (h.node x).parent with
    | none => rfl
    | some r => simp [Heap.par, hh] at hfree
  have he : append h p (.item x) = (appendItem h p x, .ok x) := by
    simp only [append, guardAppend, hpr, prepItem, hxp, Option.isSome_none, Bool.false_eq_true, if_false]
  have P := append_spec R.core.wf hp (by rintro _ ⟨⟩; exact hx) he
  refine ⟨_, he, ?_, P.par, P.frame, fun t => getItem_tag_view P.wf p t⟩
  rw [P.kids, insertIdx_end]

example : ∃ h', append demo 0 (.item 6) = (h', .ok 6) ∧ h'.kids 0 = [1, 2, 3, 5, 6] := by
  obtain ⟨h', a, b, _⟩ := C03_append_item demo_tidy.reach (p := 0) (x := 6) (by decide) (by decide) (by decide) (by decide)
  exact ⟨h', a, b⟩

/-- C03. If the item has a parent already, RecursionError is raised and nothing changes. -/
theorem C03_append_owned (h : Heap) {p x : Id} (hpr : h.isProtected p = false) (hown : h.par x ≠ none) :
    append h p (.item x) = (h, .error .recursion) := by
  have : (h.node x).parent.isSome = true := by
    cases hh : (h.node x).parent with
    | none => simp [Heap.par, hh] at hown
    | some r => rfl
  simp only [append, guardAppend, hpr, prepItem, this, Bool.false_eq_true, if_false, if_true]

example : append demo 0 (.item 4) = (demo, .error .recursion) := C03_append_owned demo (by decide) (by decide)

/-- C03. Any other object is wrapped in a new item without tag, children and flags that holds the object as value. -/
theorem C03_append_value {ms : ModelSet} {h : Heap} (R : Reach ms h) {p : Id} (v : Val) (hp : p < h.next) (hpr : h.isProtected p = false) :
    ∃ h', append h p (.val v) = (h', .ok h.next) ∧ h'.kids p = h.kids p ++ [h.next] ∧ h'.par h.next = some p ∧ OnlyPlaced h h' p h.next ∧
      h'.tag h.next = .noTag ∧ (h'.node h.next).value = v ∧ h'.flags h.next = 0#6 ∧ h'.kids h.next = [] := by
  have he : append h p (.val v) = (appendItem (prepItem h (.val v)).1 p h.next, .ok h.next) := by
    simp only [append, guardAppend, hpr, Bool.false_eq_true, if_false]
    rfl
  have P := append_spec R.core.wf hp (by rintro _ ⟨⟩) he
  obtain ⟨v1, v2, v3, v4, v5⟩ := P.val v rfl
  refine ⟨_, he, by rw [P.kids, insertIdx_end], P.par, P.frame, v2, v3, v4, v5 (by omega)⟩

example : ∃ h', append demo 1 (.val (.int 5)) = (h', .ok 7) ∧ h'.kids 1 = [4, 7] ∧ (h'.node 7).value = .int 5 := by
  obtain ⟨h', a, b, _, _, _, c, _⟩ := C03_append_value demo_tidy.reach (p := 1) (.int 5) (by decide) (by decide)
  exact ⟨h', a, b, c⟩

/-- C04. `t.appendleft(x)` of a free item on an unprotected item makes `x` child 0. -/
theorem C04_appendleft_item {ms : ModelSet} {h : Heap} (R : Reach ms h) {p x : Id} (hp : p < h.next) (hx : x < h.next)
    (hpr : h.isProtected p = false) (hfree : h.par x = none) :
    ∃ h', appendLeft h p (.item x) = (h', .ok x) ∧ h'.kids p = x :: h.kids p ∧ h'.par x = some p ∧ OnlyPlaced h h' p x ∧
      ∀ t, getItem h' p (.tag t) = (if (h'.kids p).filter (fun c => h'.tag c = t) = [] then .error .key
        else .ok (.many ((h'.kids p).filter fun c => h'.tag c = t))) := by
  have hxp : (h.node x).parent = none := by
    cases hh : (h.node x).parent with
    | none => rfl
    | some r => simp [Heap.par, hh] at hfree
  have he : appendLeft h p (.item x) = ((appendLeft h p (.item x)).1, .ok x) := by
    simp only [appendLeft, guardPlace, hpr, prepItem, hxp, Option.isSome_none, Bool.false_eq_true, if_false]
    split <;> rfl
  have P := appendLeft_spec R.core.wf hp (by rintro _ ⟨⟩; exact hx) he
  refine ⟨_, he, ?_, P.par, P.frame, fun t => getItem_tag_view P.wf p t⟩
  rw [P.kids, List.insertIdx_zero]

example : ∃ h', appendLeft demo 0 (.item 6) = (h', .ok 6) ∧ h'.kids 0 = [6, 1, 2, 3, 5] := by
  obtain ⟨h', a, b, _⟩ := C04_appendleft_item demo_tidy.reach (p := 0) (x := 6) (by decide) (by decide) (by decide) (by decide)
  exact ⟨h', a, b⟩

/-- C04. An item with a parent is refused and nothing changes. -/
theorem C04_appendleft_owned (h : Heap) {p x : Id} (hpr : h.isProtected p = false) (hown : h.par x ≠ none) :
    appendLeft h p (.item x) = (h, .error .recursion) := by
  have : (h.node x).parent.isSome = true := by
    cases hh : (h.node x).parent with
    | none => simp [Heap.par, hh] at hown
    | some r => rfl
  simp only [appendLeft, guardPlace, hpr, prepItem, this, Bool.false_eq_true, if_false, if_true]

example : appendLeft demo 0 (.item 4) = (demo, .error .recursion) := C04_appendleft_owned demo (by decide) (by decide)

/-- C04. Other objects are wrapped as by `append`. -/
theorem C04_appendleft_value {ms : ModelSet} {h : Heap} (R : Reach ms h) {p : Id} (v : Val) (hp : p < h.next) (hpr : h.isProtected p = false) :
    ∃ h', appendLeft h p (.val v) = (h', .ok h.next) ∧ h'.kids p = h.next :: h.kids p ∧ h'.par h.next = some p ∧ OnlyPlaced h h' p h.next ∧
      h'.tag h.next = .noTag ∧ (h'.node h.next).value = v ∧ h'.flags h.next = 0#6 ∧ h'.kids h.next = [] := by
  have he : appendLeft h p (.val v) = ((appendLeft h p (.val v)).1, .ok h.next) := by
    simp only [appendLeft, guardPlace, hpr, Bool.false_eq_true, if_false]
    by_cases hk : (prepItem h (.val v)).1.kids p = []
    · simp only [if_pos hk]; rfl
    · simp only [if_neg hk]; rfl
  have P := appendLeft_spec R.core.wf hp (by rintro _ ⟨⟩) he
  obtain ⟨v1, v2, v3, v4, v5⟩ := P.val v rfl
  refine ⟨_, he, by rw [P.kids, List.insertIdx_zero], P.par, P.frame, v2, v3, v4, v5 (by omega)⟩

example : ∃ h', appendLeft demo 1 (.val (.int 5)) = (h', .ok 7) ∧ h'.kids 1 = [7, 4] := by
  obtain ⟨h', a, b, _⟩ := C04_appendleft_value demo_tidy.reach (p := 1) (.int 5) (by decide) (by decide)
  exact ⟨h', a, b⟩

/-- Python's `list.insert(k, x)` -/
def listInsert (l : List Id) (k : Int) (x : Id) : List Id :=
  let n : Nat := if k < 0 then (l.length + k).toNat else min k.toNat l.length
  l.take n ++ x :: l.drop n

theorem listInsert_eq (l : List Id) (k : Int) (x : Id) : listInsert l k x = l.insertIdx (pyInsPos l.length k) x := by
  rw [insertIdx_split _ _ _ (pyInsPos_le _ _)]
  have : (if k < 0 then ((l.length : Int) + k).toNat else min k.toNat l.length) = pyInsPos l.length k := by
    unfold pyInsPos; split <;> first | rfl | omega
  simp only [listInsert, this]

/-- C05 (partial: `k ≥ -len(t)`, and the call must return). If `t.insert(k, x)` returns, the children are those `list.insert(k, x)` would give, `x`
(or the new item wrapped around the object) has the parent `t`, nothing else changes and the families stay aligned. -/
theorem C05_insert_partial {ms : ModelSet} {h h' : Heap} (R : Reach ms h) {p x : Id} {a : Arg} {k : Int} (hp : p < h.next)
    (ha : ∀ i, a = .item i → i < h.next) (hk : -((h.kids p).length : Int) ≤ k) (hr : insert h p (some (.int k)) a = (h', .ok x)) :
    h'.kids p = listInsert (h.kids p) k x ∧ h'.par x = some p ∧ OnlyPlaced h h' p x ∧
    (∀ i, a = .item i → x = i ∧ h.par i = none) ∧
    (∀ v, a = .val v → x = h.next ∧ h'.tag x = .noTag ∧ (h'.node x).value = v ∧ h'.kids x = []) ∧
    ∀ t, getItem h' p (.tag t) = (if (h'.kids p).filter (fun c => h'.tag c = t) = [] then .error .key
        else .ok (.many ((h'.kids p).filter fun c => h'.tag c = t))) := by
  have P := insert_spec R.core.wf hp ha hk hr
  refine ⟨by rw [P.kids, listInsert_eq], P.par, P.frame, P.item, fun v e => ?_, fun t => getItem_tag_view P.wf p t⟩
  obtain ⟨v1, v2, v3, v4, v5⟩ := P.val v e
  exact ⟨v1, v2, v3, v5 (by omega)⟩

example : ∃ h', insert demo 0 (some (.int (-2))) (.item 6) = (h', .ok 6) ∧ h'.kids 0 = [1, 2, 6, 3, 5] ∧ getItem h' 0 (.tag (.other 1)) = .ok (.many [1, 6, 3]) := by
  have hr : insert demo 0 (some (.int (-2))) (.item 6) = ((insert demo 0 (some (.int (-2))) (.item 6)).1, .ok 6) := rfl
  obtain ⟨a, _, _, _, _, b⟩ := C05_insert_partial demo_tidy.reach (by decide) (by rintro _ ⟨⟩; decide) (by decide) hr
  exact ⟨_, hr, a, by decide⟩

/-- C05. Inserting a new tag, or anything at index 0, always returns. -/
theorem C05_insert_returns {ms : ModelSet} {h : Heap} (R : Reach ms h) {p x : Id} {k : Int}
    (hpr : h.isProtected p = false) (hfree : h.par x = none) (hk : k = 0 ∨ k = -((h.kids p).length : Int) ∨ ∀ c ∈ h.kids p, h.tag c ≠ h.tag x) :
    ∃ h', insert h p (some (.int k)) (.item x) = (h', .ok x) := by
  have hxp : (h.node x).parent = none := by
    cases hh : (h.node x).parent with
    | none => rfl
    | some r => simp [Heap.par, hh] at hfree
  simp only [insert, guardPlace, hpr, prepItem, hxp, Option.isSome_none, Bool.false_eq_true, if_false]
  split
  · exact ⟨_, rfl⟩
  · next hne =>
    simp only [insertPos]
    generalize hk' : (if k < 0 then ((h.kids p).length : Int) + k else k) = k'
    unfold insertAt
    split
    · exact ⟨_, rfl⟩
    · next hk0 =>
      rcases hk with rfl | rfl | hk
      · simp at hk'; exact (hk0 hk'.symm).elim
      · exfalso
        have : 0 < (h.kids p).length := List.length_pos_iff.2 hne
        apply hk0; rw [← hk', if_pos (by omega)]; omega
      · obtain ⟨F, hb, hf, hO⟩ := R.core.wf.bound hne
        have hg := hO.get (h.tag x)
        have hv : famView h p (h.tag x) = [] := by
          simp only [famView, List.filter_eq_nil_iff, decide_eq_true_eq]; exact hk
        rw [if_pos hv] at hg
        simp only [hb, Option.getD_some, hg]
        exact ⟨_, rfl⟩

example : ∃ h', insert demo 1 (some (.int 1)) (.item 6) = (h', .ok 6) :=
  C05_insert_returns demo_tidy.reach (by decide) (by decide) (Or.inr (Or.inr (by decide)))

/-- The interval search for the place in a family: if the absolute positions of the family members (delivered by their `idx`) are increasing,
the result is the number of members in front of the absolute position `k` – for every family and every position. -/
theorem famInsIdx_counts {h : Heap} {fam : List Id} {k : Int} {n : Nat} {pos : Id → Nat}
    (hidx : ∀ h1, CEq h h1 → ∀ y ∈ fam, ∀ i, (h1.idx y).2 = .ok i → i = some (pos y : Int))
    (hinc : fam.Pairwise (fun a b => pos a < pos b)) (hr : (famInsIdx h fam k).2 = .ok n) :
    n = (fam.filter fun y => (pos y : Int) < k).length := by
  have I : IdxIs h fam pos := hidx
  rw [famInsIdx_ok I hinc hr, List.countP_eq_length_filter]

/-- C06. In every reachable state, for the family of any tag and every absolute position `k`, the interval search returns the number of members
that stand in front of position `k` in the item order – whatever the cached positions are. -/
theorem C06_family_position {ms : ModelSet} {h : Heap} (R : Reach ms h) (p : Id) (t : Tag) (k : Int) (hne : famView h p t ≠ []) :
    (famInsIdx h (famView h p t) k).2 = .ok ((famView h p t).filter fun y => ((h.kids p).idxOf y : Int) < k).length := by
  have W := R.core.wf
  have hch : ∀ h1, CEq h h1 → ∀ y ∈ famView h p t, (h1.idx y).2 = .ok (some ((h.kids p).idxOf y : Int)) := by
    intro h1 H y hy
    have hy' : y ∈ h1.kids p := by rw [H.kids]; exact (List.mem_filter.1 hy).1
    obtain ⟨m, e1, e2⟩ := idx_child (H.wf W) hy'
    rw [H.kids] at e2
    rw [e1, nodup_idxOf_unique (W.kids_nodup p) e2]
  obtain ⟨n, hn⟩ := famInsIdx_succ (k := k) (fun h1 H y hy => ⟨_, hch h1 H y hy⟩) hne
  rw [hn]
  congr 1
  refine famInsIdx_counts (pos := fun y => (h.kids p).idxOf y) (fun h1 H y hy i hi => ?_) ?_ hn
  · rw [hch h1 H y hy] at hi; simpa [eq_comm] using hi
  · exact List.Pairwise.sublist List.filter_sublist (idxOf_pairwise (W.kids_nodup p))

example : (famInsIdx demo (famView demo 0 (.other 1)) 2).2 = .ok 1 := by
  rw [C06_family_position demo_tidy.reach 0 (.other 1) 2 (by decide)]; rfl

/-- What stands for the argument `a` of `extend` in the new children list: a free item is taken itself (the first time it is given), an item that has
a parent (or was given before) is replaced by a new item which is the root of a tree of the same shape, any other object is wrapped. -/
def StandsFor (h h' : Heap) (earlier : List Arg) (a : Arg) (x : Id) : Prop :=
  match a with
  | .val v => h.next ≤ x ∧ h'.tag x = .noTag ∧ (h'.node x).value = v ∧ h'.flags x = 0#6 ∧ h'.kids x = []
  | .item i =>
    (h.par i = none ∧ Arg.item i ∉ earlier → x = i) ∧
    (h.par i ≠ none ∨ Arg.item i ∈ earlier → h.next ≤ x ∧ ∃ T : Tree, T.id = x ∧ Rep h' T ∧ T.shape = (h.tree i).copyShape)

/-- C07. `t.extend(items)` on an unprotected item: the children are the old ones followed by one item per argument, in order. (An argument may not
contain `t` itself.) -/
theorem C07_extend {ms : ModelSet} {h : Heap} (R : Reach ms h) {p : Id} (hp : p < h.next) (hpr : h.isProtected p = false) (as : List Arg)
    (_hv : ∀ a ∈ as, a.isPlain = true) (hlt : ∀ i, Arg.item i ∈ as → i < h.next) (hb : ∀ i, Arg.item i ∈ as → ¬ Below h i p) :
    ∃ h' xs, extend h p as = (h', .ok ()) ∧ h'.kids p = h.kids p ++ xs ∧ xs.length = as.length ∧ (∀ x ∈ xs, h'.par x = some p) ∧
      (∀ j a x, as[j]? = some a → xs[j]? = some x → StandsFor h h' (as.take j) a x) ∧
      Frame h h' (· = p) (fun i => Arg.item i ∈ as ∧ h.par i = none) := by
  have he : extend h p as = (iterExtend h p as, .ok ()) := by simp [extend, guardExtend, hpr]
  obtain ⟨xs, S⟩ := extend_spec R.core.wf hp hlt he
  have F' := S.forest R.core.forest fun i hi _ => hb i hi
  refine ⟨_, xs, he, S.kids, S.len, S.par, fun j a x ha hx => ?_, ?_⟩
  · have E := S.each j a x ha hx
    cases a with
    | val v => exact E
    | item i => exact ⟨E.1, fun hh => ⟨(E.2 hh).1, (E.2 hh).2 F' (hb i (List.mem_of_getElem? ha))⟩⟩
  · have f := S.frame
    refine ⟨f.next, f.tag, f.value, f.flags, f.link, f.kids, fun i hi hn => ?_⟩
    by_cases hm : Arg.item i ∈ as
    · have hpi : h.par i ≠ none := fun e => hn ⟨hm, e⟩
      exact iterExtend_keepPar R.core.wf hp as hlt hi hpi
    · exact f.par i hi hm

/-- the items given to `extend` in the example: the free item 6, the owned item 4, item 6 again and a number -/
def demoArgs : List Arg := [.item 6, .item 4, .item 6, .val (.int 8)]

theorem demoArgs_ok : ∀ i, Arg.item i ∈ demoArgs → i < demo.next ∧ ¬ Below demo i 2 ∧ i ∉ demo.kids 2 := by
  intro i hi
  have : i = 6 ∨ i = 4 := by
    simp [demoArgs] at hi
    omega
  rcases this with rfl | rfl
  · exact ⟨by decide, fun b => absurd (below_leaf (by decide) b) (by decide), by decide⟩
  · exact ⟨by decide, fun b => absurd (below_leaf (by decide) b) (by decide), by decide⟩

example : ∃ h' xs, extend demo 2 demoArgs = (h', .ok ()) ∧ h'.kids 2 = xs ∧ xs.length = 4 ∧ xs[0]? = some 6 := by
  obtain ⟨h', xs, a, b, c, _, e, _⟩ := C07_extend demo_tidy.reach (p := 2) (by decide) (by decide) demoArgs (by decide)
    (fun i hi => (demoArgs_ok i hi).1) (fun i hi => (demoArgs_ok i hi).2.1)
  refine ⟨h', xs, a, b, c, ?_⟩
  match xs, c with
  | x :: xs, _ =>
    have := (e 0 (.item 6) x rfl rfl).1 ⟨by decide, by simp⟩
    simp [this]

theorem emptied_frame (h : Heap) (p : Id) : Frame h (emptied h p) (· = p) (· ∈ h.kids p) := by
  obtain ⟨f1, f2, f3, f4, f5, f6, f7, f8, f9⟩ := emptied_facts h p
  exact ⟨by omega, fun i _ => f2 i, fun i _ => f3 i, fun i _ => f4 i, fun i _ => f5 i, fun i _ hi => by rw [f6, if_neg hi],
    fun i _ hi => by rw [emptied_par, if_neg hi]⟩

/-- C08. `t.extendleft(items)` on an unprotected item, none of the items being already a child of `t`: one item per argument in order, followed by
the old children. -/
theorem C08_extendleft_partial {ms : ModelSet} {h : Heap} (R : Reach ms h) {p : Id} (hp : p < h.next) (hpr : h.isProtected p = false) (as : List Arg)
    (_hv : ∀ a ∈ as, a.isPlain = true) (hlt : ∀ i, Arg.item i ∈ as → i < h.next) (hb : ∀ i, Arg.item i ∈ as → ¬ Below h i p) (hd : ∀ i, Arg.item i ∈ as → i ∉ h.kids p) :
    ∃ h' xs, extendLeft h p as = (h', .ok ()) ∧ h'.kids p = xs ++ h.kids p ∧ xs.length = as.length ∧ (∀ x ∈ xs, h'.par x = some p) ∧
      (∀ j a x, as[j]? = some a → xs[j]? = some x → StandsFor h h' (as.take j) a x) ∧
      Frame h h' (· = p) (fun i => Arg.item i ∈ as ∧ h.par i = none) := by
  have he : extendLeft h p as = (iterExtend (emptied h p) p (as ++ (h.kids p).map Arg.item), .ok ()) := by
    simp [extendLeft, guardExtendLeft, hpr, emptied]
  obtain ⟨xs, S⟩ := extendLeft_spec R.core.wf hp hlt hd he
  have F' := S.forest R.core.forest fun i hi _ => hb i hi
  have hnext := (emptied_facts h p).1
  have hpe : ∀ i, Arg.item i ∈ as → (emptied h p).par i = h.par i := fun i hi => by rw [emptied_par, if_neg (hd i hi)]
  refine ⟨_, xs, he, S.kids, S.len, S.par, fun j a x ha hx => ?_, ?_⟩
  · have E := S.each j a x ha hx
    cases a with
    | val v => simpa [ExtArg, StandsFor, hnext] using E
    | item i =>
      have hi := List.mem_of_getElem? ha
      have T := (tree_stable R.core.wf (emptied_wf R.core.wf p) R.core.forest (emptied_frame h p) (hlt i hi) (fun j bj e => hb i hi (e ▸ bj))).2.1
      have E' : _ ∧ _ := E
      rw [hpe i hi, T, hnext] at E'
      exact ⟨E'.1, fun hh => ⟨(E'.2 hh).1, (E'.2 hh).2 F' (fun b => hb i hi (below_emptied b))⟩⟩
  · have f := S.frame
    refine ⟨f.next, f.tag, f.value, f.flags, f.link, f.kids, fun i hi hn => ?_⟩
    by_cases hm : Arg.item i ∈ as
    · have hpi : h.par i ≠ none := fun e => hn ⟨hm, e⟩
      have := iterExtend_keepPar (emptied_wf R.core.wf p) (p := p) (by omega) (as ++ (h.kids p).map Arg.item) (fun i hi => by
        rw [hnext]
        rcases List.mem_append.1 hi with hi | hi
        · exact hlt i hi
        · obtain ⟨c, hc, e⟩ := List.mem_map.1 hi
          cases e; exact R.core.wf.kids_lt p _ hc) (j := i) (by omega) (by rw [hpe i hm]; exact hpi)
      rw [this, hpe i hm]
    · exact f.par i hi hm

example : ∃ h' xs, extendLeft demo 2 demoArgs = (h', .ok ()) ∧ h'.kids 2 = xs ++ [] ∧ xs.length = 4 := by
  obtain ⟨h', xs, a, b, c, _⟩ := C08_extendleft_partial demo_tidy.reach (p := 2) (by decide) (by decide) demoArgs (by decide)
    (fun i hi => (demoArgs_ok i hi).1) (fun i hi => (demoArgs_ok i hi).2.1) (fun i hi => (demoArgs_ok i hi).2.2)
  exact ⟨h', xs, a, b, c⟩

end ITree
