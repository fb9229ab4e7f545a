import Verif.Spec.Aligned
import Verif.Props.Placing
/-
C09-C12: removing, replacing, moving and renaming items.
-/
namespace ITree

theorem WF.aligned {h : Heap} (W : WF h) (p : Id) : Aligned h p := fun t => getItem_tag_view W p t

theorem pyPos_iff {len : Nat} {k : Int} {n : Nat} (hn : n < len) (hk : k = n ∨ k = (n : Int) - len) : pyPos len k = some n := by
  unfold pyPos
  rcases hk with rfl | rfl
  · simp [hn]
  · rw [if_neg (by omega), if_pos (by omega)]; congr 1; omega

/-- C09. `del t[k]` / `t.pop(k)`, where `k` names the child `x` at position `n` from the front (`k = n`) or from the back (`k = n - len(t)`): exactly
that child leaves the list and is returned, it has no parent any more, nothing else changes, and the families stay aligned. -/
theorem C09_del_child {ms : ModelSet} {h : Heap} (R : Reach ms h) {p x : Id} {n : Nat} {k : Int} (hpr : h.isProtected p = false)
    (hx : (h.kids p)[n]? = some x) (hk : k = n ∨ k = (n : Int) - (h.kids p).length) :
    ∃ h', delItem h p (.int k) = (h', .ok [x]) ∧ h'.kids p = (h.kids p).take n ++ (h.kids p).drop (n + 1) ∧ h'.par x = none ∧
      Frame h h' (· = p) (· = x) ∧ Aligned h' p := by
  have C := R.core
  have hn := (List.getElem?_eq_some_iff.1 hx).1
  obtain ⟨h', e⟩ := delInt_succ (k := k) C.wf (fun c _ => C.nocov c) (lr := false) (by simp [guardDel, hpr]) (pyPos_iff hn hk) hx (by simp)
  obtain ⟨m, hm, D⟩ := delInt_ok C.wf (fun c _ => C.nocov c) e
  have : m = n := by rw [pyPos_iff hn hk] at hm; simpa [eq_comm] using hm
  subst this
  refine ⟨h', by simp [delItem, e, Except.map], ?_, by rw [D.par', if_pos rfl], D.frame, (D.wf C.wf).aligned p⟩
  rw [D.kids_p, List.eraseIdx_eq_take_drop_succ]

example : ∃ h', delItem demo 0 (.int (-3)) = (h', .ok [2]) ∧ h'.kids 0 = [1, 3, 5] := by
  obtain ⟨h', a, b, _⟩ := C09_del_child demo_tidy.reach (p := 0) (x := 2) (n := 1) (k := -3) (by decide) (by decide) (by decide)
  exact ⟨h', a, b⟩

/-- C09. An index out of range raises and changes nothing. -/
theorem C09_del_range (h : Heap) (p : Id) (k : Int) (hk : k < -((h.kids p).length : Int) ∨ ((h.kids p).length : Int) ≤ k) :
    ∃ e, delItem h p (.int k) = (h, .error e) := by
  have hp : pyPos (h.kids p).length k = none := by
    unfold pyPos; split
    · rw [if_neg (by omega)]
    · rw [if_neg (by omega)]
  simp only [delItem, delInt]
  split
  · exact ⟨_, rfl⟩
  · split
    · exact ⟨_, rfl⟩
    · simp only [hp]; exact ⟨_, rfl⟩

example : ∃ e, delItem demo 0 (.int 4) = (demo, .error e) := C09_del_range demo 0 4 (by decide)

theorem frame_of_ceq {h h1 h' : Heap} {K P} (H : CEq h h1) (F : Frame h1 h' K P) : Frame h h' K P := by
  have O : Frame h h1 K P := ⟨Nat.le_of_eq H.next.symm, fun i _ => by simp only [Heap.tag]; rw [H.node i], fun i _ => by rw [H.node i],
    fun i _ => by simp only [Heap.flags]; rw [H.node i], fun i _ => by rw [H.node i], fun i _ _ => H.kids i,
    fun i _ _ => by simp only [Heap.par]; exact (H.par i).par⟩
  exact O.trans F

/-- deleting a child found by `idx` -/
theorem delByItem_succ {h : Heap} (C : Core h) {p x : Id} (hpr : h.isProtected p = false) {n : Nat} (hx : (h.kids p)[n]? = some x) :
    ∃ h', delByItem h p x = (h', .ok x) ∧ h'.kids p = (h.kids p).take n ++ (h.kids p).drop (n + 1) ∧ h'.par x = none ∧
      Frame h h' (· = p) (· = x) ∧ Aligned h' p ∧ Core h' := by
  have hxm := List.mem_of_getElem? hx
  obtain ⟨m, e1, e2⟩ := idx_child C.wf hxm
  have hmn : m = n := by rw [← nodup_idxOf_unique (C.wf.kids_nodup p) hx, nodup_idxOf_unique (C.wf.kids_nodup p) e2]
  subst hmn
  have H := idx_ceq h x
  have W1 := H.wf C.wf
  have hn := (List.getElem?_eq_some_iff.1 hx).1
  obtain ⟨h', e⟩ := delInt_succ (h := (h.idx x).1) (p := p) (k := (m : Int)) (n := m) (x := x) W1 (fun c _ => H.noCover C.nocov c) (lr := false)
    (by
      have : (h.idx x).1.isProtected p = false := by simp only [Heap.isProtected, Heap.flags]; rw [H.node p]; exact hpr
      simp [guardDel, this])
    (by rw [H.kids]; exact pyPos_nat hn) (by rw [H.kids]; exact hx) (by simp)
  have e' : delByItem h p x = (h', .ok x) := by simp only [delByItem, e1]; exact e
  obtain ⟨_, D⟩ := delByItem_ok C.wf C.nocov hx e'
  exact ⟨h', e', by rw [D.kids_p, List.eraseIdx_eq_take_drop_succ], by rw [D.par', if_pos rfl], D.frame, (D.wf C.wf).aligned p, (D.keeps C).core⟩

/-- C09. `t.remove(x)` takes out exactly the child `x`. -/
theorem C09_remove {ms : ModelSet} {h : Heap} (R : Reach ms h) {p x : Id} {n : Nat} (hpr : h.isProtected p = false)
    (hx : (h.kids p)[n]? = some x) :
    ∃ h', remove h p x = (h', .ok x) ∧ h'.kids p = (h.kids p).take n ++ (h.kids p).drop (n + 1) ∧ h'.par x = none ∧
      Frame h h' (· = p) (· = x) ∧ Aligned h' p := by
  obtain ⟨h', a, b, c, d, e, _⟩ := delByItem_succ R.core hpr hx
  have : h.par x = some p := par_child R.core.wf (List.mem_of_getElem? hx)
  exact ⟨h', by simp only [remove, this, if_true]; exact a, b, c, d, e⟩

example : ∃ h', remove demo 0 3 = (h', .ok 3) ∧ h'.kids 0 = [1, 2, 5] := by
  obtain ⟨h', a, b, _⟩ := C09_remove demo_tidy.reach (p := 0) (x := 3) (n := 2) (by decide) (by decide)
  exact ⟨h', a, b⟩

/-- C09. `del t[(g, i)]` takes out exactly the i-th child with tag `g`. -/
theorem C09_del_key {ms : ModelSet} {h : Heap} (R : Reach ms h) {p x : Id} {n : Nat} {g : Tag} {i : Int} (hpr : h.isProtected p = false)
    (hi : pyGet ((h.kids p).filter fun c => h.tag c = g) i = some x) (hx : (h.kids p)[n]? = some x) :
    ∃ h', delItem h p (.key g (.int i)) = (h', .ok [x]) ∧ h'.kids p = (h.kids p).take n ++ (h.kids p).drop (n + 1) ∧ h'.par x = none ∧
      Frame h h' (· = p) (· = x) ∧ Aligned h' p := by
  obtain ⟨h', a, b, c, d, e, _⟩ := delByItem_succ R.core hpr hx
  have hne : h.kids p ≠ [] := by intro e; rw [e] at hx; simp at hx
  refine ⟨h', ?_, b, c, d, e⟩
  simp only [delItem, guardDel, hpr, Bool.false_eq_true, if_false, if_neg hne, C01_family_key_partial R p g i x hi, a, Except.map]

example : ∃ h', delItem demo 0 (.key (.other 1) (.int 1)) = (h', .ok [3]) ∧ h'.kids 0 = [1, 2, 5] := by
  obtain ⟨h', a, b, _⟩ := C09_del_key demo_tidy.reach (p := 0) (x := 3) (n := 2) (g := .other 1) (i := 1) (by decide) (by decide) (by decide)
  exact ⟨h', a, b⟩

/-- C10 (partial: the target is not the tag of the new item, and replacing across tags needs another child with the old tag; the call must
return). If `t[target] = a` returns, where the target denotes the child `old` at position `n`: position `n` holds the new item `x` (the free item
itself, a copy of an item that has a parent already, or a new item around the object), `old` has no parent, nothing else changes, the families stay
aligned. -/
theorem C10_setitem_partial {ms : ModelSet} {h h' : Heap} (R : Reach ms h) {p x old : Id} {a : Arg} {tg : Target} {n : Nat} (hp : p < h.next) (_hv : a.isPlain = true)
    (ha : ∀ i, a = .item i → i < h.next) (hg : getItem h p tg = .ok (.one old)) (hn : (h.kids p)[n]? = some old) (hne : a ≠ .item old)
    (hdots : tg ≠ .dots) (htag : tg.asTag ≠ some (argTag h a))
    (hfam : argTag h a = h.tag old ∨ ∃ c ∈ h.kids p, c ≠ old ∧ h.tag c = h.tag old) (hr : setItem h p tg a = (h', .ok x)) :
    h'.kids p = (h.kids p).take n ++ x :: (h.kids p).drop (n + 1) ∧ h'.par x = some p ∧ h'.par old = none ∧
    Frame h h' (· = p) (fun i => i = x ∨ i = old) ∧ Aligned h' p ∧
    (∀ v, a = .val v → x = h.next ∧ h'.tag x = .noTag ∧ (h'.node x).value = v ∧ h'.flags x = 0#6 ∧ h'.kids x = []) ∧
    (∀ i, a = .item i → h.par i = none → x = i) ∧
    (∀ i, a = .item i → h.par i ≠ none → h.next ≤ x ∧ ∃ T : Tree, T.id = x ∧ Rep h' T ∧ T.shape = (h.tree i).copyShape) := by
  have hlen := (List.getElem?_eq_some_iff.1 hn).1
  have hmo := List.mem_of_getElem? hn
  have S := setItem_spec R.core.wf hp ha hg hn hne hdots (by
      intro t h1 h2
      cases a with
      | item i => rw [h1 i rfl]; exact htag
      | val v => rw [h2 v rfl]; exact htag) (by
      rcases hfam with e | ⟨c, c1, c2, c3⟩
      · left
        cases a with
        | item i => exact ⟨by rintro _ ⟨⟩; exact e, by rintro _ ⟨⟩⟩
        | val v => exact ⟨by rintro _ ⟨⟩, by rintro _ ⟨⟩; exact e.symm⟩
      · right
        have m1 : c ∈ famView h p (h.tag old) := List.mem_filter.2 ⟨c1, by simpa using c3⟩
        have m2 : old ∈ famView h p (h.tag old) := List.mem_filter.2 ⟨hmo, by simp⟩
        generalize famView h p (h.tag old) = L at m1 m2
        match L with
        | [] => simp at m1
        | [z] => simp at m1 m2; exact (c2 (m1.trans m2.symm)).elim
        | _ :: _ :: _ => simp) hr
  refine ⟨?_, S.par, S.oldPar, S.frame, S.wf.aligned p, ?_, ?_, ?_⟩
  · rw [S.kids, List.set_eq_take_append_cons_drop, if_pos hlen]
  · rintro v rfl; exact S.arg
  · rintro i rfl hi; exact S.arg.1 hi
  · rintro i rfl hi; exact ⟨(S.arg.2 hi).1, (S.arg.2 hi).2 R.core.forest⟩

example : ∃ h', setItem demo 0 (.int 2) (.item 6) = (h', .ok 6) ∧ h'.kids 0 = [1, 2, 6, 5] ∧ h'.par 3 = none := by
  have hr : setItem demo 0 (.int 2) (.item 6) = ((setItem demo 0 (.int 2) (.item 6)).1, .ok 6) := rfl
  obtain ⟨a, _, b, _⟩ := C10_setitem_partial demo_tidy.reach (p := 0) (x := 6) (old := 3) (n := 2) (by decide) rfl (by rintro _ ⟨⟩; decide) (by rfl)
    (by decide) (by simp) (by simp) (by decide) (Or.inl (by decide)) hr
  exact ⟨_, hr, a, b⟩

/-- C11. `x.move()` of a child of an unprotected item makes `x` the last child; all others keep their relative order. -/
theorem C11_move_last {ms : ModelSet} {h : Heap} (R : Reach ms h) {p x : Id} (hpr : h.isProtected p = false) (hx : x ∈ h.kids p) :
    ∃ h', move h x none = (h', .ok x) ∧ h'.kids p = (h.kids p).erase x ++ [x] ∧ Frame h h' (· = p) (fun _ => False) ∧ Aligned h' p := by
  obtain ⟨m, hm⟩ := List.getElem?_of_mem hx
  obtain ⟨h1, a, _, c, d, _, _⟩ := delByItem_succ R.core hpr hm
  obtain ⟨r, r1, r2, _⟩ := R.core.wf.kid_parent p x hx
  have hp : p < h.next := R.core.wf.lt_of_kids (p := p) (List.ne_nil_of_mem hx)
  have hpr1 : h1.isProtected p = false := by rw [← hpr]; simp only [Heap.isProtected]; rw [d.flags p hp]
  have hxp : (h1.node x).parent = none := by
    cases hh : (h1.node x).parent with
    | none => rfl
    | some r => simp [Heap.par, hh] at c
  have hr : move h x none = (appendItem h1 p x, .ok x) := by
    simp only [move, r1, r2, hpr, Bool.false_and, Bool.false_eq_true, if_false, a, append, guardAppend, hpr1, prepItem, hxp, Option.isSome_none]
  obtain ⟨S, K⟩ := moveEnd_spec R.core hx hr
  refine ⟨_, hr, ?_, S.frame, S.wf.aligned p⟩
  have hl : ((h.kids p).erase x).length = (h.kids p).length - 1 := by simp [hx]
  rw [S.kids, ← hl, insertIdx_end]

example : ∃ h', move demo 1 none = (h', .ok 1) ∧ h'.kids 0 = [2, 3, 5, 1] := by
  obtain ⟨h', a, b, _⟩ := C11_move_last demo_tidy.reach (p := 0) (x := 1) (by decide) (by decide)
  exact ⟨h', a, b⟩

/-- C11 (partial: see `C11_move_lands_after`). `x.move(k)`, if it returns, takes `x` out and does `list.insert(k, x)` on the remaining children. -/
theorem C11_move_int_partial {ms : ModelSet} {h h' : Heap} (R : Reach ms h) {p x z : Id} (hx : x ∈ h.kids p) {k : Int}
    (hk : -((h.kids p).length - 1 : Int) ≤ k) (hr : move h x (some (.int k)) = (h', .ok z)) :
    h'.kids p = listInsert ((h.kids p).erase x) k x ∧ Frame h h' (· = p) (fun _ => False) ∧ Aligned h' p := by
  obtain ⟨S, K⟩ := moveTo_spec R.core hx hk hr
  refine ⟨?_, S.frame, S.wf.aligned p⟩
  have hl : ((h.kids p).erase x).length = (h.kids p).length - 1 := by simp [hx]
  rw [S.kids, listInsert_eq, hl]

/-- C11. If `x` stands at or behind position `k ≥ 0`, `x` comes to stand directly before the item that was at `k`. -/
theorem C11_move_before {ms : ModelSet} {h h' : Heap} (R : Reach ms h) {p x y z : Id} {k m : Nat} (hxm : (h.kids p)[m]? = some x)
    (hy : (h.kids p)[k]? = some y) (hkm : k < m) (hr : move h x (some (.int k)) = (h', .ok z)) :
    h'.kids p = (h.kids p).take k ++ x :: y :: ((h.kids p).drop (k + 1)).erase x := by
  have hx := List.mem_of_getElem? hxm
  have hl : 0 < (h.kids p).length := List.length_pos_of_mem hx
  obtain ⟨e, _, _⟩ := C11_move_int_partial R hx (k := (k : Int)) (by omega) hr
  have hnd := R.core.wf.kids_nodup p
  generalize h.kids p = L at *
  have hk := (List.getElem?_eq_some_iff.1 hy).1
  have hm := (List.getElem?_eq_some_iff.1 hxm).1
  have hidx := nodup_idxOf_unique hnd hxm
  have hL : L = L.take k ++ y :: L.drop (k + 1) := by
    have := (List.getElem?_eq_some_iff.1 hy).2
    rw [← this, ← List.drop_eq_getElem_cons hk, List.take_append_drop]
  have hnot : x ∉ L.take k := fun hh => by have := idxOf_lt_of_mem_take hh; omega
  have hyx : y ≠ x := by
    rintro rfl
    have := nodup_idxOf_unique hnd hy
    omega
  have her : L.erase x = L.take k ++ y :: (L.drop (k + 1)).erase x := by
    conv => lhs; rw [hL]
    rw [List.erase_append_right _ hnot, List.erase_cons_tail (by simpa using hyx)]
  rw [e, her]
  simp only [listInsert]
  rw [if_neg (by omega)]
  have h1 : (L.take k ++ y :: (L.drop (k + 1)).erase x).length ≥ k := by simp; omega
  have h2 : min (k : Int).toNat (L.take k ++ y :: (L.drop (k + 1)).erase x).length = k := by
    rw [Int.toNat_natCast]; omega
  rw [h2]
  have h3 : (L.take k).length = k := by simp; omega
  rw [List.take_append_of_le_length (by omega), List.drop_append_of_le_length (by omega)]
  simp [List.take_of_length_le, h3]

example : ∃ h', move demo 5 (some (.int 1)) = (h', .ok 5) ∧ h'.kids 0 = [1, 5, 2, 3] := by
  have hr : move demo 5 (some (.int 1)) = ((move demo 5 (some (.int 1))).1, .ok 5) := rfl
  exact ⟨_, hr, C11_move_before demo_tidy.reach (p := 0) (k := 1) (m := 3) (y := 2) (by decide) (by decide) (by decide) hr⟩

/-- C11, negative part: an item moved to a later position lands behind, not before, the item that was there. -/
theorem C11_move_lands_after : ∃ h', move demo 1 (some (.int 2)) = (h', .ok 1) ∧ demo.kids 0 = [1, 2, 3, 5] ∧ h'.kids 0 = [2, 3, 1, 5] :=
  ⟨_, rfl, by decide, by decide⟩

/-- C12. `x.rename(g)` of a root changes its tag and nothing else. -/
theorem C12_rename_root {ms : ModelSet} {h : Heap} (R : Reach ms h) {x : Id} {g : Tag} (hx : h.par x = none) :
    ∃ h', rename h x g = (h', .ok ()) ∧ (∀ i, h'.tag i = if i = x then g else h.tag i) ∧ (∀ i, h'.kids i = h.kids i) ∧ (∀ i, h'.par i = h.par i) ∧
      (∀ i, (h'.node i).value = (h.node i).value) ∧ (∀ i, h'.flags i = h.flags i) ∧ ∀ p, Aligned h' p := by
  have hxp : (h.node x).parent = none := by
    cases hh : (h.node x).parent with
    | none => rfl
    | some r => simp [Heap.par, hh] at hx
  obtain ⟨h', e, S⟩ := rename_free (g := g) R.core.wf hxp
  exact ⟨h', e, S.tag, S.kids, S.par, S.value, S.flags, S.wf.aligned⟩

example : ∃ h', rename demo 6 (.other 9) = (h', .ok ()) ∧ h'.tag 6 = .other 9 := by
  obtain ⟨h', a, b, _⟩ := C12_rename_root demo_tidy.reach (x := 6) (g := .other 9) (by decide)
  exact ⟨h', a, by rw [b]; rfl⟩

/-- C12 (partial: no same-tag sibling may compare equal to `x`). `x.rename(g)` of a child of an unprotected item: the tag of `x` is
`g`, nothing else changes (in particular the item order), and the families are aligned with the new tags. -/
theorem C12_rename_partial {ms : ModelSet} {h : Heap} (R : Reach ms h) {p x : Id} {g : Tag} (hpr : h.isProtected p = false) (hx : x ∈ h.kids p)
    (heq : ∀ y ∈ h.kids p, h.tag y = h.tag x → y ≠ x → h.eqItem y x = false) :
    ∃ h', rename h x g = (h', .ok ()) ∧ (∀ i, h'.tag i = if i = x then g else h.tag i) ∧ (∀ i, h'.kids i = h.kids i) ∧ (∀ i, h'.par i = h.par i) ∧
      (∀ i, (h'.node i).value = (h.node i).value) ∧ (∀ i, h'.flags i = h.flags i) ∧ ∀ p, Aligned h' p := by
  obtain ⟨n, hn⟩ := List.getElem?_of_mem hx
  rcases rename_child (g := g) R.core.wf hn heq with ⟨e, _⟩ | ⟨h', e, S⟩
  · rw [hpr] at e; simp at e
  · exact ⟨h', e, S.tag, S.kids, S.par, S.value, S.flags, S.wf.aligned⟩

example : ∃ h', rename demo 3 (.other 2) = (h', .ok ()) ∧ h'.kids 0 = [1, 2, 3, 5] ∧ getItem h' 0 (.tag (.other 2)) = .ok (.many [2, 3]) := by
  obtain ⟨h', a, b, c, _, _, _, d⟩ := C12_rename_partial demo_tidy.reach (p := 0) (x := 3) (g := .other 2) (by decide) (by decide) (by decide)
  refine ⟨h', a, by rw [c]; decide, ?_⟩
  have := d 0 (.other 2)
  rw [c, show demo.kids 0 = [1, 2, 3, 5] from by decide] at this
  simpa [b, show demo.tag 1 = .other 1 from rfl, show demo.tag 2 = .other 2 from rfl, show demo.tag 5 = .noTag from rfl] using this

end ITree
