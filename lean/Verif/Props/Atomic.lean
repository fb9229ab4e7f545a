import Verif.Props.Reorder
import Verif.Props.Protect
import Verif.Props.Positions
import Verif.Props.Lookup
/-
C24: failed calls change nothing.
-/
namespace ITree

/-- The calls for which the claim is proved: all calls but
* `insert`, `move`, `t[i]=x` ending in the AttributeError/TypeError of the family search, or outside of the uses covered by `Allowed`
  (`C05_C24_insert_crash`, `C11_C24_move_crash`, `C10_C24_empty_family_insert`), `move` below a link root;
* `del` with a slice (`C09_C24_del_slice_error`), with a target naming an item several times (`C24_del_list_twice`), or with a target standing for several
  items below a protected parent;
* `rename` outside of `Allowed`;
* `rotate` by more than the number of children (`C14_rotate_too_far`);
* `clear` of a link root;
* `extend`, `extendleft` and the constructor with Python lists among the items (argument lists; an invalid one raises in the middle);
* `set_tree_read_only` above a linked item (`C23_C24_set_stops`). -/
def Clean (h : Heap) : Call → Prop
  | .new _ _ sub _ => ∀ a ∈ sub, a.isPlain = true
  | .newLink _ _ sub f _ _ => (∀ a ∈ sub, a.isPlain = true) ∧ f.has Flags.loadLinks = false
  | .extend _ as => ∀ a ∈ as, a.isPlain = true
  | .extendLeft _ as => ∀ a ∈ as, a.isPlain = true
  | .insert p tg a => Allowed h (.insert p tg a)
  | .setItem p tg a => Allowed h (.setItem p tg a)
  | .move x tg => Allowed h (.move x tg) ∧ ∀ p, h.par x = some p → h.isLinkRoot p = false
  | .rename x g => Allowed h (.rename x g)
  | .del p tg => (∀ s, tg ≠ .slice s) ∧ ∀ l, getItem h p tg = .ok (.many l) → h.isProtected p = false ∧ l.Nodup
  | .rotate p n => p < h.next ∧ n.natAbs ≤ (h.kids p).length
  | .clear p _ => h.isLinkRoot p = false
  | .setTreeReadOnly x => (h.flags x).has Flags.linked = true ∨ ∀ y, Below h x y → (h.flags y).has Flags.linked = false
  | _ => True

theorem Unchanged.rfl {h : Heap} : Unchanged h h := Frame.refl h _ _

theorem prepItem_unchanged {h h1 : Heap} {a : Arg} {x : Id} (hr : prepItem h a = (h1, .ok x)) : Unchanged h h1 := by
  have hn := fun i (hi : i < h.next) => prepItem_node hr hi
  refine ⟨?_, fun i hi => ?_, fun i hi => ?_, fun i hi => ?_, fun i hi => ?_, fun i hi _ => ?_, fun i hi _ => ?_⟩
  · rcases prepItem_ok hr with ⟨_, _, _, rfl, _⟩ | ⟨v, _, A⟩
    · exact Nat.le_refl _
    · rw [A.eq]; simp [Heap.alloc]
  all_goals simp only [Heap.tag, Heap.flags, Heap.kids, Heap.par, hn i hi]

/-- a failing `insert` that does not stop in the middle of the family search changes nothing -/
theorem insert_unchanged {h h' : Heap} (C : Core h) {p : Id} {a : Arg} {tg : Option Target} {e : Err}
    (h1 : e ≠ .attribute) (h2 : e ≠ .type) (hr : insert h p tg a = (h', .error e)) : Unchanged h h' := by
  unfold insert at hr
  split at hr
  · rw [append_err hr]; exact .rfl
  · next tg' =>
    dsimp only at hr
    split at hr
    · simp at hr; rw [← hr.1]; exact .rfl
    · split at hr
      · next e' he =>
        simp only [Prod.mk.injEq] at hr
        rw [← hr.1, (prepItem_err (show prepItem h a = ((prepItem h a).1, .error e') by rw [← he])).1]; exact .rfl
      · next x hx =>
        split at hr
        · simp at hr
        · next hne =>
          have K := prepItem_keeps C a
          have H := insertPos_ceq (prepItem h a).1 p tg'
          have K2 := H.keeps K.core
          split at hr
          · simp only [Prod.mk.injEq] at hr
            rw [← hr.1]
            exact (prepItem_unchanged (show prepItem h a = ((prepItem h a).1, .ok x) by rw [← hx])).trans H.unchanged
          · rcases insertAt_err K2.core.wf (by rw [H.kids]; exact hne) hr with rfl | rfl
            · exact (h1 rfl).elim
            · exact (h2 rfl).elim

/-- inserting a free item by index below an unprotected parent can only fail in the family search -/
theorem insert_free_err {h : Heap} (C : Core h) {p x : Id} {k : Int} {e : Err} (hpr : h.isProtected p = false) (hx : (h.node x).parent = none)
    (hr : (insert h p (some (.int k)) (.item x)).2 = .error e) : e = .attribute ∨ e = .type := by
  have hp : prepItem h (.item x) = (h, .ok x) := by simp [prepItem, hx]
  have hg : guardPlace h p (.item x) = none := by simp [guardPlace, hpr]
  simp only [insert, hg, hp, insertPos] at hr
  split at hr
  · simp at hr
  · next hne => exact insertAt_err C.wf hne (show insertAt h p x _ = ((insertAt h p x _).1, .error e) by rw [← hr])

theorem move_unchanged {h : Heap} (C : Core h) {p x : Id} (hx : x ∈ h.kids p) (tg : Option Target) (hl : h.isLinkRoot p = false) {e : Err}
    (h1 : e ≠ .attribute) (h2 : e ≠ .type) (hr : (move h x tg).2 = .error e) : Unchanged h (move h x tg).1 := by
  have W := C.wf
  obtain ⟨m, hm⟩ := List.getElem?_of_mem hx
  obtain ⟨r, r1, r2, _⟩ := W.kid_parent p x hx
  revert hr
  unfold move
  simp only [r1, r2, hl, Bool.false_eq_true, if_false, Bool.and_true]
  split
  · intro _; exact .rfl
  · next hpr =>
    have hpr : h.isProtected p = false := by simpa using hpr
    split
    · obtain ⟨h', a, _, c, d, _, _⟩ := delByItem_succ C hpr hm
      simp only [a]
      intro hr
      exfalso
      have hg : guardAppend h' p (.item x) = none := by
        have : h'.isProtected p = false := by simp only [Heap.isProtected]; rw [d.flags p (C.wf.lt_of_kids (List.ne_nil_of_mem hx))]; exact hpr
        simp [guardAppend, this]
      have hxp : (h'.node x).parent = none := by simpa [Heap.par] using c
      simp [append, hg, prepItem, hxp] at hr
    · next k =>
      obtain ⟨h', a, _, c, d, _, C'⟩ := delByItem_succ C hpr hm
      simp only [a]
      intro hr
      have : h'.isProtected p = false := by simp only [Heap.isProtected]; rw [d.flags p (C.wf.lt_of_kids (List.ne_nil_of_mem hx))]; exact hpr
      rcases insert_free_err C' this (by simpa [Heap.par] using c) hr with rfl | rfl
      · exact (h1 rfl).elim
      · exact (h2 rfl).elim
    · split
      · intro _; exact .rfl
      · intro _; exact .rfl
      · next y hy =>
        have H := idx_ceq h y
        split
        · intro _; exact H.unchanged
        · intro _; exact H.unchanged
        · next k hk =>
          have K := H.keeps C
          obtain ⟨h', a, _, c, d, _, C'⟩ := delByItem_succ K.core (p := p) (x := x) (n := m) (by rw [H.isProtected]; exact hpr) (by rw [H.kids]; exact hm)
          simp only [a]
          intro hr
          have : h'.isProtected p = false := by
            simp only [Heap.isProtected]; rw [d.flags p (by rw [H.next]; exact C.wf.lt_of_kids (List.ne_nil_of_mem hx)), H.flags]; exact hpr
          rcases insert_free_err C' this (by simpa [Heap.par] using c) hr with rfl | rfl
          · exact (h1 rfl).elim
          · exact (h2 rfl).elim

/-- `del` of several items below an unprotected parent does not fail -/
theorem delMany_ok {p : Id} : ∀ (l : List Id) {h : Heap}, Core h → h.isProtected p = false → l.Nodup → (∀ c ∈ l, c ∈ h.kids p) →
    ∃ h' ys, delMany h p l = (h', .ok ys) := by
  intro l
  induction l with
  | nil => intro h _ _ _ _; exact ⟨h, [], rfl⟩
  | cons x xs ih =>
    intro h C hpr hnd hk
    obtain ⟨m, hm⟩ := List.getElem?_of_mem (hk x (by simp))
    obtain ⟨h', a, b, c, d, _, C'⟩ := delByItem_succ C hpr hm
    have hlt := C.wf.lt_of_kids (List.ne_nil_of_mem (hk x (by simp)))
    obtain ⟨h2, ys, e⟩ := ih C' (by simp only [Heap.isProtected]; rw [d.flags p hlt]; exact hpr) (List.nodup_cons.1 hnd).2 (by
      intro c hc
      rw [b]
      obtain ⟨j, hj⟩ := List.getElem?_of_mem (hk c (by simp [hc]))
      have hcx : c ≠ x := fun e => (List.nodup_cons.1 hnd).1 (e ▸ hc)
      have hjm : j ≠ m := by rintro rfl; rw [hm] at hj; exact hcx (by simpa using hj.symm)
      rw [List.mem_append]
      rcases Nat.lt_or_gt_of_ne hjm with h1 | h1
      · left; exact List.mem_of_getElem? (i := j) (by rw [List.getElem?_take, if_pos h1]; exact hj)
      · right; exact List.mem_of_getElem? (i := j - (m + 1)) (by rw [List.getElem?_drop, show m + 1 + (j - (m + 1)) = j by omega]; exact hj))
    exact ⟨h2, x :: ys, by simp only [delMany, a, e]⟩

theorem delItem_unchanged {ms : ModelSet} {h : Heap} (R : Reach ms h) {p : Id} {tg : Target} (hc : Clean h (.del p tg)) {e : Err}
    (hr : (delItem h p tg).2 = .error e) : Unchanged h (delItem h p tg).1 := by
  have C := R.core
  obtain ⟨hs, hm⟩ := hc
  have hone : ∀ x, (delByItem h p x).2.map (fun x => [x]) = .error e → Unchanged h (delByItem h p x).1 := by
    intro x hr
    cases h2 : (delByItem h p x).2 with
    | ok y => rw [h2] at hr; simp [Except.map] at hr
    | error e' => exact (delByItem_err C.wf C.nocov (show delByItem h p x = ((delByItem h p x).1, .error e') by rw [← h2])).unchanged
  revert hr
  unfold delItem
  split
  · next k =>
    intro hr
    dsimp only at hr ⊢
    cases h2 : (delInt h p k).2 with
    | ok y => rw [h2] at hr; simp [Except.map] at hr
    | error e' =>
      rw [delInt_err C.wf (fun c _ => C.nocov c) (show delInt h p k = ((delInt h p k).1, .error e') by rw [← h2])]; exact .rfl
  · exact (hs _ rfl).elim
  · split
    · intro _; exact .rfl
    · split
      · intro _; exact .rfl
      · split
        · intro _; exact .rfl
        · next x hx => intro hr; exact hone x hr
        · next l hl =>
          intro hr
          obtain ⟨hpr, hnd⟩ := hm l hl
          obtain ⟨h', ys, e'⟩ := delMany_ok l C hpr hnd (fun c hc => (C20_only_children R p _).2 _ hl c hc)
          rw [e'] at hr; simp at hr

theorem step_void {α} {r : Res α} {e : Err} (h : (Res.void r).2 = .error e) : r.2 = .error e := by
  revert h
  unfold Res.void
  cases r.2 <;> simp [Except.map]

/-- C24 (partial: for the calls described by `Clean`, which lists the exceptions). If a call raises, tags, values, flags, links, children and parents of
all items are as before, and the families too. -/
theorem C24_failed_partial {ms : ModelSet} {h : Heap} (R : Reach ms h) (c : Call) (hc : Clean h c) {e : Err} (hr : (step ms h c).2 = .error e) :
    Unchanged h (step ms h c).1 ∧ ∀ p, p < h.next → ∀ t, famView (step ms h c).1 p t = famView h p t := by
  have C := R.core
  have key : Unchanged h (step ms h c).1 := by
    cases c with
    | new t v s f =>
      have := step_void hr
      unfold newItem at this
      split at this <;> simp at this
    | newLink t v s f file path =>
      have := step_void hr
      unfold newLink newItem at this
      split at this <;> simp at this
    | append p a =>
      rw [show (step ms h (.append p a)).1 = h from append_err (show append h p a = ((append h p a).1, .error e) by rw [← step_void hr])]; exact .rfl
    | appendLeft p a =>
      rw [show (step ms h (.appendLeft p a)).1 = h from appendLeft_err (show appendLeft h p a = ((appendLeft h p a).1, .error e) by rw [← step_void hr])]; exact .rfl
    | insert p tg a =>
      obtain ⟨_, _, _, h1, h2⟩ := hc
      have he := step_void hr
      rw [he] at h1 h2
      exact insert_unchanged C (e := e) (by simpa using h1) (by simpa using h2) (show insert h p tg a = ((insert h p tg a).1, .error e) by rw [← he])
    | extend p as =>
      rw [show (step ms h (.extend p as)).1 = h from extend_err (show extend h p as = ((extend h p as).1, .error e) by rw [← hr]; rfl)]; exact .rfl
    | extendTree p u =>
      revert hr
      simp only [step, extendTree]
      split
      · intro _; exact .rfl
      · split <;> simp
    | extendLeft p as =>
      rw [show (step ms h (.extendLeft p as)).1 = h from extendLeft_err (show extendLeft h p as = ((extendLeft h p as).1, .error e) by rw [← hr]; rfl)]; exact .rfl
    | del p tg => exact delItem_unchanged R hc (step_void hr)
    | remove p x =>
      have he := step_void hr
      show Unchanged h (remove h p x).1
      revert he
      unfold remove
      split
      · intro he; exact (delByItem_err C.wf C.nocov (show delByItem h p x = ((delByItem h p x).1, .error e) by rw [← he])).unchanged
      · intro _; exact .rfl
    | setItem p tg a =>
      have he := step_void hr
      suffices (setItem h p tg a).1 = h by show Unchanged h (setItem h p tg a).1; rw [this]; exact .rfl
      obtain ⟨hp, hA, -, hh⟩ := hc
      rcases hh with ⟨e', he'⟩ | ⟨old, hg, hdots, htag, hfam, hcr⟩
      · unfold setItem
        split
        · rfl
        · simp only [he']
      · by_cases hne : a = .item old
        · subst hne
          unfold setItem
          split
          · rfl
          · simp only [hg, beq_self_eq_true, if_true]
        · exact setItem_err C hg hdots htag hne (hcr e he) he
    | move x tg =>
      obtain ⟨⟨p, hx, _, h1, h2⟩, hl⟩ := hc
      have he := step_void hr
      rw [he] at h1 h2
      exact move_unchanged C hx tg (hl p (par_child C.wf hx)) (by simpa using h1) (by simpa using h2) he
    | rename x g =>
      show Unchanged h (rename h x g).1
      have hr' : (rename h x g).2 = .error e := hr
      rcases hc with hx | ⟨p, hx, heq⟩
      · have hn : (h.node x).parent = none := by simpa [Heap.par] using hx
        simp [rename, hn] at hr'
      · obtain ⟨n, hn⟩ := List.getElem?_of_mem hx
        rcases rename_child C.wf (g := g) hn heq with ⟨_, he⟩ | ⟨h', he, S⟩
        · rw [he]; exact .rfl
        · rw [he] at hr'; simp at hr'
    | reverse p =>
      show Unchanged h (reverse h p).1
      have hr' : (reverse h p).2 = .error e := hr
      suffices (reverse h p).1 = h by rw [this]; exact .rfl
      revert hr'
      unfold reverse
      split
      · intro _; rfl
      · intro _; rfl
      · split
        · next hf =>
          intro _
          have : h.kids p = [] := by
            by_contra hc
            obtain ⟨F, hF, _⟩ := C.wf.fams_ok p hc
            rw [hF] at hf; simp at hf
          have h2 := setItems_self h p
          rw [this] at h2 ⊢
          exact h2
        · simp
    | rotate p n =>
      show Unchanged h (rotate h p n).1
      have hr' : (rotate h p n).2 = .error e := hr
      obtain ⟨hp, hn⟩ := hc
      by_cases hpr : h.isProtected p = true
      · revert hr'
        unfold rotate
        split
        · intro _; exact .rfl
        · intro _; exact .rfl
        · next hg =>
          simp only [guardReorder, hpr, if_true] at hg
          split at hg <;> simp at hg
      · obtain ⟨h1, _, e1, _⟩ := C14_rotate_back R hp (by simpa using hpr) n hn
        rw [e1] at hr'; simp at hr'
    | sort p k r => rw [show (step ms h (.sort p k r)).1 = h from sort_err hr]; exact .rfl
    | clear p k =>
      show Unchanged h (clear h p k).1
      have hr' : (clear h p k).2 = .error e := hr
      have hl : h.isLinkRoot p = false := hc
      revert hr'
      unfold clear
      split
      · intro _; exact .rfl
      · simp only [hl, Bool.false_eq_true, if_false]
        split
        · intro _; exact .rfl
        · simp
    | copy x => simp [step] at hr
    | setTreeReadOnly x =>
      show Unchanged h (setTreeReadOnly h x).1
      have hr' : (setTreeReadOnly h x).2 = .error e := hr
      rcases hc with hc | hc
      · simp only [setTreeReadOnly, setFlagsAll, setFlags1, hc, if_true]; exact .rfl
      · obtain ⟨h', e1, _⟩ := C23_set_deep R x hc
        rw [e1] at hr'; simp at hr'
    | unsetTreeReadOnly x =>
      show Unchanged h (unsetTreeReadOnly h x).1
      have hr' : (unsetTreeReadOnly h x).2 = .error e := hr
      revert hr'
      unfold unsetTreeReadOnly unsetFlagsOp
      (repeat' split) <;> (intro hr'; first | exact .rfl | simp at hr')
    | setValueReadOnly x =>
      show Unchanged h (setValueReadOnly h x).1
      have hr' : (setValueReadOnly h x).2 = .error e := hr
      revert hr'
      unfold setValueReadOnly setFlags1
      (repeat' split) <;> (intro hr'; first | exact .rfl | simp at hr')
    | unsetValueReadOnly x =>
      show Unchanged h (unsetValueReadOnly h x).1
      have hr' : (unsetValueReadOnly h x).2 = .error e := hr
      revert hr'
      unfold unsetValueReadOnly unsetFlagsOp
      (repeat' split) <;> (intro hr'; first | exact .rfl | simp at hr')
    | setValue x v =>
      have he := step_void hr
      show Unchanged h (setValue ms h x v).1
      revert he
      unfold setValue
      (repeat' split) <;> (intro hr'; first | exact .rfl | simp at hr')
    | setKeyValue x k v =>
      have he := step_void hr
      show Unchanged h (setKeyValue ms h x k v).1
      revert he
      unfold setKeyValue
      (repeat' split) <;> (intro hr'; first | exact .rfl | simp at hr')
    | delValue x =>
      have he := step_void hr
      show Unchanged h (delValue h x).1
      revert he
      unfold delValue
      (repeat' split) <;> (intro hr'; first | exact .rfl | simp at hr')
    | delKeyValue x k =>
      have he := step_void hr
      show Unchanged h (delKeyValue h x k).1
      revert he
      unfold delKeyValue
      (repeat' split) <;> (intro hr'; first | exact .rfl | simp at hr')
    | readIdx x => exact (idx_ceq h x).unchanged
    | readTagIdx x => exact (tagIdx_ceq h x).unchanged
  refine ⟨key, fun p hp t => ?_⟩
  simp only [famView, key.kids p hp (fun h => h)]
  apply List.filter_congr
  intro c hcm
  rw [key.tag c (C.wf.kids_lt p c hcm)]

example : Clean demo (.append 1 (.item 3)) ∧ (step ms0 demo (.append 1 (.item 3))).2 = .error .recursion := ⟨trivial, by decide⟩
example : (step ms0 demo (.del 0 (.int 7))).2 = .error .index ∧ (step ms0 demo (.reverse 4)).2 = .error .attribute ∧
    (step ms0 demo (.insert 0 (some (.int 1)) (.item 4))).2 = .error .recursion := by decide

/-- Disagreement: `del t[[0, 0]]` deletes the first child and then raises. -/
theorem C24_del_list_twice : (let r := delItem demo 0 (.list [.int 0, .int 0]); r.2 = .error .type ∧ demo.kids 0 = [1, 2, 3, 5] ∧ r.1.kids 0 = [2, 3, 5]) := by
  decide +kernel

end ITree
