import Verif.Props.Removing
/-
C13-C16: reverse, rotate, sort, clear.
-/
namespace ITree

theorem guardReorder_ok {h : Heap} {p : Id} (hpr : h.isProtected p = false) : guardReorder h p = .ok true := by simp [guardReorder, hpr]

/-- C13. `t.reverse()` on an unprotected item with children reverses the item order; nothing else changes and the families are aligned with the new
order (so every family is reversed, too). -/
theorem C13_reverse_partial {ms : ModelSet} {h : Heap} (R : Reach ms h) {p : Id} (hpr : h.isProtected p = false) (hne : h.kids p ≠ []) :
    ∃ h', reverse h p = (h', .ok ()) ∧ h'.kids p = (h.kids p).reverse ∧ Frame h h' (· = p) (fun _ => False) ∧ Aligned h' p ∧
      ∀ t, famView h' p t = (famView h p t).reverse := by
  obtain ⟨F, hb, hf, hO⟩ := R.core.wf.bound hne
  have he : reverse h p = ((reverse h p).1, .ok ()) := by simp only [reverse, guardReorder_ok hpr, hf]
  have hkd : (reverse h p).1.kids p = (h.kids p).reverse := by
    simp only [reverse, guardReorder_ok hpr, hf]; simp
  refine ⟨_, he, hkd, ?_⟩
  have key : Frame h (reverse h p).1 (· = p) (fun _ => False) ∧ WF (reverse h p).1 := by
    rcases reverse_spec R.core.wf he with e | P
    · rw [e]; exact ⟨Frame.refl _ _ _, R.core.wf⟩
    · exact ⟨P.frame, P.wf R.core.wf⟩
  refine ⟨key.1, key.2.aligned p, fun t => ?_⟩
  simp only [famView]
  rw [hkd, ← List.filter_reverse]
  apply List.filter_congr
  intro c hc
  rw [key.1.tag c (R.core.wf.kids_lt p c (List.mem_reverse.1 hc))]

example : ∃ h', reverse demo 0 = (h', .ok ()) ∧ h'.kids 0 = [5, 3, 2, 1] := by
  obtain ⟨h', a, b, _⟩ := C13_reverse_partial demo_tidy.reach (p := 0) (by decide) (by decide)
  exact ⟨h', a, b⟩

/-- C13. Reversing twice restores the order. -/
theorem C13_reverse_twice {ms : ModelSet} {h : Heap} (R : Reach ms h) {p : Id} (hpr : h.isProtected p = false) (hne : h.kids p ≠ []) :
    ∃ h1 h2, reverse h p = (h1, .ok ()) ∧ reverse h1 p = (h2, .ok ()) ∧ h2.kids p = h.kids p ∧ Unchanged h h2 := by
  obtain ⟨h1, a, b, c, _, _⟩ := C13_reverse_partial R hpr hne
  have hp := R.core.wf.lt_of_kids hne
  have R1 : Reach ms h1 := by
    have := R.step (.reverse p) trivial
    simp only [step, a] at this; exact this
  obtain ⟨h2, a', b', c', _, _⟩ := C13_reverse_partial R1 (p := p) (by simp only [Heap.isProtected]; rw [c.flags p hp]; exact hpr) (by rw [b]; simpa using hne)
  have hk : h2.kids p = h.kids p := by rw [b', b, List.reverse_reverse]
  refine ⟨h1, h2, a, a', hk, ?_⟩
  have F := c.trans c'
  exact ⟨F.next, F.tag, F.value, F.flags, F.link, fun i hi _ => if e : i = p then by rw [e, hk] else F.kids i hi e, F.par⟩

example : ∃ h1 h2, reverse demo 0 = (h1, .ok ()) ∧ reverse h1 0 = (h2, .ok ()) ∧ h2.kids 0 = demo.kids 0 := by
  obtain ⟨h1, h2, a, b, c, _⟩ := C13_reverse_twice demo_tidy.reach (p := 0) (by decide) (by decide)
  exact ⟨h1, h2, a, b, c⟩

/-- C13, negative part: reversing an item that never had children raises AttributeError. -/
theorem C13_reverse_never_filled : (reverse demo 4).2 = .error .attribute := rfl

theorem popMany_succ {p : Id} (k : Int) (hk : k = 0 ∨ k = -1) : ∀ (n : Nat) {h : Heap}, Core h → h.isProtected p = false → n ≤ (h.kids p).length →
    ∃ h' xs, popMany h p k n = (h', .ok xs) := by
  intro n
  induction n with
  | zero => intro h _ _ _; exact ⟨_, _, rfl⟩
  | succ n ih =>
    intro h C hpr hn
    have hl : 0 < (h.kids p).length := by omega
    have hp := C.wf.lt_of_kids (p := p) (by intro e; rw [e] at hl; simp at hl)
    have hpos : ∃ m, pyPos (h.kids p).length k = some m ∧ m < (h.kids p).length := by
      rcases hk with rfl | rfl
      · exact ⟨0, pyPos_iff hl (Or.inl rfl), hl⟩
      · exact ⟨(h.kids p).length - 1, pyPos_iff (by omega) (Or.inr (by omega)), by omega⟩
    obtain ⟨m, hm, hml⟩ := hpos
    obtain ⟨h1, e⟩ := delInt_succ C.wf (fun c _ => C.nocov c) (lr := false) (by simp [guardDel, hpr]) hm (List.getElem?_eq_getElem hml) (by simp)
    obtain ⟨m', hm', D⟩ := delInt_ok C.wf (fun c _ => C.nocov c) e
    have hmm : m' = m := by rw [hm] at hm'; simpa [eq_comm] using hm'
    subst hmm
    obtain ⟨h', xs, e'⟩ := ih (D.keeps C).core (by simp only [Heap.isProtected]; rw [D.flags]; exact hpr)
      (by rw [D.kids_p, List.length_eraseIdx_of_lt hml]; omega)
    exact ⟨h', _, by simp only [popMany, e, e']; rfl⟩

/-- C14. `t.rotate(n)` with `0 ≤ n ≤ len(t)` moves the last `n` children to the front. -/
theorem C14_rotate_right_partial {ms : ModelSet} {h : Heap} (R : Reach ms h) {p : Id} (hp : p < h.next) (hpr : h.isProtected p = false)
    {A B : List Id} (hk : h.kids p = A ++ B) :
    ∃ h', rotate h p B.length = (h', .ok ()) ∧ h'.kids p = B ++ A ∧ Frame h h' (· = p) (fun _ => False) ∧ Aligned h' p := by
  by_cases hB : B = []
  · subst hB
    refine ⟨h, by simp [rotate, guardReorder_ok hpr], by simpa using hk, Frame.refl _ _ _, R.core.wf.aligned p⟩
  · have hpos : 0 < B.length := List.length_pos_iff.2 hB
    obtain ⟨h1, xs, e⟩ := popMany_succ (-1) (Or.inr rfl) B.length R.core hpr (by rw [hk]; simp)
    obtain ⟨q1, q2, S⟩ := popMany_last _ _ _ _ R.core.wf R.core.nocov e
    have hr : rotate h p B.length = ((rotate h p B.length).1, .ok ()) := by
      simp only [rotate, guardReorder_ok hpr]
      rw [if_pos (by omega), show (B.length : Int).toNat = B.length from rfl, e]
      simp only [extendLeft, guardExtendLeft, Heap.isProtected]
      rw [S.flags]; simp only [Heap.isProtected] at hpr; simp [hpr]
    obtain ⟨q, T⟩ := rotate_pos R.core.wf R.core.nocov hp (n := B.length) (by omega) (guardReorder_ok hpr) hr
    refine ⟨_, hr, ?_, T.frame, T.wf.aligned p⟩
    rw [T.kids, hk]
    simp

example : ∃ h', rotate demo 0 3 = (h', .ok ()) ∧ h'.kids 0 = [2, 3, 5, 1] := by
  obtain ⟨h', a, b, _⟩ := C14_rotate_right_partial demo_tidy.reach (p := 0) (by decide) (by decide) (A := [1]) (B := [2, 3, 5]) (by decide)
  exact ⟨h', a, b⟩

/-- C14. `t.rotate(-n)` with `0 ≤ n ≤ len(t)` moves the first `n` children to the end. -/
theorem C14_rotate_left_partial {ms : ModelSet} {h : Heap} (R : Reach ms h) {p : Id} (hp : p < h.next) (hpr : h.isProtected p = false)
    {A B : List Id} (hk : h.kids p = A ++ B) :
    ∃ h', rotate h p (-(A.length : Int)) = (h', .ok ()) ∧ h'.kids p = B ++ A ∧ Frame h h' (· = p) (fun _ => False) ∧ Aligned h' p := by
  by_cases hA : A = []
  · subst hA
    refine ⟨h, by simp [rotate, guardReorder_ok hpr], by simpa using hk, Frame.refl _ _ _, R.core.wf.aligned p⟩
  · have hpos : 0 < A.length := List.length_pos_iff.2 hA
    obtain ⟨h1, xs, e⟩ := popMany_succ 0 (Or.inl rfl) A.length R.core hpr (by rw [hk]; simp)
    obtain ⟨q1, q2, S⟩ := popMany_first _ _ _ _ R.core.wf R.core.nocov e
    have ht : (- -(A.length : Int)).toNat = A.length := by omega
    have hr : rotate h p (-(A.length : Int)) = ((rotate h p (-(A.length : Int))).1, .ok ()) := by
      simp only [rotate, guardReorder_ok hpr]
      rw [if_neg (by omega), if_pos (by omega), ht, e]
      simp only [extend, guardExtend, Heap.isProtected]
      rw [S.flags]; simp only [Heap.isProtected] at hpr; simp [hpr]
    obtain ⟨q, T⟩ := rotate_neg R.core.wf R.core.nocov hp (n := -(A.length : Int)) (by omega) (guardReorder_ok hpr) hr
    refine ⟨_, hr, ?_, T.frame, T.wf.aligned p⟩
    rw [T.kids, hk, ht]
    simp

example : ∃ h', rotate demo 0 (-3) = (h', .ok ()) ∧ h'.kids 0 = [5, 1, 2, 3] := by
  obtain ⟨h', a, b, _⟩ := C14_rotate_left_partial demo_tidy.reach (p := 0) (by decide) (by decide) (A := [1, 2, 3]) (B := [5]) (by decide)
  exact ⟨h', a, b⟩

/-- C14. `t.rotate(n)` followed by `t.rotate(-n)` restores the order, for `|n| ≤ len(t)`. -/
theorem C14_rotate_back {ms : ModelSet} {h : Heap} (R : Reach ms h) {p : Id} (hp : p < h.next) (hpr : h.isProtected p = false) (n : Int)
    (hn : n.natAbs ≤ (h.kids p).length) :
    ∃ h1 h2, rotate h p n = (h1, .ok ()) ∧ rotate h1 p (-n) = (h2, .ok ()) ∧ h2.kids p = h.kids p ∧ Unchanged h h2 := by
  have fin : ∀ {h1 h2 : Heap}, Frame h h1 (· = p) (fun _ => False) → Frame h1 h2 (· = p) (fun _ => False) → h2.kids p = h.kids p → Unchanged h h2 := by
    intro h1 h2 c c' hk
    have F := c.trans c'
    exact ⟨F.next, F.tag, F.value, F.flags, F.link, fun i hi _ => if e : i = p then by rw [e, hk] else F.kids i hi e, F.par⟩
  have nxt : ∀ {h1 : Heap} {n}, rotate h p n = (h1, .ok ()) → Reach ms h1 := by
    intro h1 n a
    have := R.step (.rotate p n) hp
    simp only [step, a] at this; exact this
  by_cases h0 : 0 ≤ n
  · have hA : ((h.kids p).drop ((h.kids p).length - n.natAbs)).length = n.natAbs := by simp; omega
    obtain ⟨h1, a, b, c, _⟩ := C14_rotate_right_partial R hp hpr (List.take_append_drop ((h.kids p).length - n.natAbs) (h.kids p)).symm
    rw [hA, show ((n.natAbs : Nat) : Int) = n from by omega] at a
    obtain ⟨h2, a', b', c', _⟩ := C14_rotate_left_partial (nxt a) (p := p) (by have := c.next; omega) (by simp only [Heap.isProtected]; rw [c.flags p hp]; exact hpr) b
    rw [hA, show ((n.natAbs : Nat) : Int) = n from by omega] at a'
    rw [List.take_append_drop] at b'
    exact ⟨h1, h2, a, a', b', fin c c' b'⟩
  · have hA : ((h.kids p).take n.natAbs).length = n.natAbs := by simp; omega
    obtain ⟨h1, a, b, c, _⟩ := C14_rotate_left_partial R hp hpr (List.take_append_drop n.natAbs (h.kids p)).symm
    rw [hA, show -((n.natAbs : Nat) : Int) = n from by omega] at a
    obtain ⟨h2, a', b', c', _⟩ := C14_rotate_right_partial (nxt a) (p := p) (by have := c.next; omega) (by simp only [Heap.isProtected]; rw [c.flags p hp]; exact hpr) b
    rw [hA, show ((n.natAbs : Nat) : Int) = -n from by omega] at a'
    rw [List.take_append_drop] at b'
    exact ⟨h1, h2, a, a', b', fin c c' b'⟩

example : ∃ h1 h2, rotate demo 0 2 = (h1, .ok ()) ∧ rotate h1 0 (-2) = (h2, .ok ()) ∧ h2.kids 0 = demo.kids 0 := by
  obtain ⟨h1, h2, a, b, c, _⟩ := C14_rotate_back demo_tidy.reach (p := 0) (by decide) (by decide) 2 (by decide)
  exact ⟨h1, h2, a, b, c⟩

/-- C14, negative part: rotating by more than the number of children raises after all children were taken out. -/
theorem C14_rotate_too_far : (rotate demo 0 5).2 = .error .key ∧ demo.kids 0 = [1, 2, 3, 5] ∧ (rotate demo 0 5).1.kids 0 = [] := ⟨rfl, by decide, rfl⟩

/-- C15 (partial: the code replaces all children by copies, see `C15_sort_replaces`). `t.sort(key, reverse)` on an unprotected item: the new children
are copies of the old ones in the order `l`, where `l` is a permutation of the old children in which the keys are non-decreasing (resp.
non-increasing), and children with equal keys keep their order. -/
theorem C15_sort_partial {ms : ModelSet} {h : Heap} (R : Reach ms h) {p : Id} (hp : p < h.next) (hpr : h.isProtected p = false)
    (key : Id → Int) (rev : Bool) :
    ∃ (h' : Heap) (l xs : List Id), sort h p key rev = (h', .ok ()) ∧ l.Perm (h.kids p) ∧
      l.Pairwise (fun a b => if rev then key b ≤ key a else key a ≤ key b) ∧ (∀ k, l.filter (fun c => key c = k) = (h.kids p).filter fun c => key c = k) ∧
      h'.kids p = xs ∧ xs.length = l.length ∧
      (∀ (j : Nat) (c x : Id), l[j]? = some c → xs[j]? = some x → ∃ T : Tree, T.id = x ∧ Rep h' T ∧ T.shape = (h.tree c).copyShape) ∧
      Frame h h' (· = p) (fun _ => False) ∧ Aligned h' p := by
  have hr : sort h p key rev = ((sort h p key rev).1, .ok ()) := by
    simp only [sort, guardReorder_ok hpr]
    simp only [extend, guardExtend, Heap.isProtected, Heap.flags, node_modify, if_true]
    simp only [Heap.isProtected, Heap.flags] at hpr
    simp [hpr]
  obtain ⟨xs, S⟩ := sort_spec R.core.wf hp (guardReorder_ok hpr) hr
  have htr : ∀ a b c : Id, (if rev then decide (key b ≤ key a) else decide (key a ≤ key b)) = true →
      (if rev then decide (key c ≤ key b) else decide (key b ≤ key c)) = true → (if rev then decide (key c ≤ key a) else decide (key a ≤ key c)) = true := by
    intro a b c; cases rev <;> simp <;> omega
  have hto : ∀ a b : Id, ((if rev then decide (key b ≤ key a) else decide (key a ≤ key b)) || (if rev then decide (key a ≤ key b) else decide (key b ≤ key a))) = true := by
    intro a b; cases rev <;> simp <;> omega
  have hperm : (sortKeyed key rev (h.kids p)).Perm (h.kids p) := List.mergeSort_perm _ _
  refine ⟨_, sortKeyed key rev (h.kids p), xs, hr, hperm, ?_, ?_, S.kids, S.len, S.copies R.core.forest, S.frame, S.wf.aligned p⟩
  · refine (List.pairwise_mergeSort htr hto (h.kids p)).imp ?_
    intro a b; cases rev <;> simp
  · intro k
    have h1 : ((h.kids p).filter fun c => key c = k).Sublist (sortKeyed key rev (h.kids p)) := by
      refine List.sublist_mergeSort htr hto ?_ List.filter_sublist
      rw [List.pairwise_filter]
      refine List.pairwise_of_forall ?_
      intro a b ha hb
      simp only [decide_eq_true_eq] at ha hb
      cases rev <;> simp <;> omega
    have h2 := h1.filter (fun c => key c = k)
    rw [List.filter_filter] at h2
    simp only [Bool.and_self] at h2
    exact (h2.eq_of_length (by rw [(hperm.filter _).length_eq])).symm

example : ∃ (h' : Heap) (l xs : List Id), sort demo 0 (fun c => -(c : Int)) false = (h', .ok ()) ∧ l.Perm (demo.kids 0) ∧ h'.kids 0 = xs ∧ xs.length = l.length := by
  obtain ⟨h', l, xs, a, b, _, _, c, d, _⟩ := C15_sort_partial demo_tidy.reach (p := 0) (by decide) (by decide) (fun c => -(c : Int)) false
  exact ⟨h', l, xs, a, b, c, d⟩

/-- C15, negative part: every child after `sort` is a new object; the old children are not in the list any more but still name `t` as parent. -/
theorem C15_sort_replaces {ms : ModelSet} {h : Heap} (R : Reach ms h) {p : Id} (hp : p < h.next) (hpr : h.isProtected p = false)
    (key : Id → Int) (rev : Bool) :
    ∃ h', sort h p key rev = (h', .ok ()) ∧ (∀ x ∈ h'.kids p, h.next ≤ x) ∧ ∀ c ∈ h.kids p, c ∉ h'.kids p ∧ h'.par c = some p := by
  have hr : sort h p key rev = ((sort h p key rev).1, .ok ()) := by
    simp only [sort, guardReorder_ok hpr]
    simp only [extend, guardExtend, Heap.isProtected, Heap.flags, node_modify, if_true]
    simp only [Heap.isProtected, Heap.flags] at hpr
    simp [hpr]
  obtain ⟨xs, S⟩ := sort_spec R.core.wf hp (guardReorder_ok hpr) hr
  refine ⟨_, hr, fun x hx => S.fresh x (S.kids ▸ hx), fun c hc => ⟨fun hh => ?_, ?_⟩⟩
  · have := S.fresh c (S.kids ▸ hh); have := R.core.wf.kids_lt p c hc; omega
  · rw [S.frame.par c (R.core.wf.kids_lt p c hc) (by simp), par_child R.core.wf hc]

/-- C16 (partial: the former children keep `t` as parent and all flags are dropped, see `C16_clear_leftovers`). `t.clear()` on an unprotected item:
no children, no value (unless `keep_value`), no lookup finds anything, all other items unchanged. -/
theorem C16_clear_partial {ms : ModelSet} {h : Heap} (R : Reach ms h) {p : Id} (hpr : h.isProtected p = false) (keep : Bool) :
    ∃ h', clear h p keep = (h', .ok ()) ∧ h'.kids p = [] ∧ (h'.node p).value = (if keep then (h.node p).value else .noValue) ∧
      h'.tag p = h.tag p ∧ h'.par p = h.par p ∧ (∀ i, i ≠ p → h'.node i = h.node i) ∧ ∀ tg, ∃ e, getItem h' p tg = .error e := by
  have hb : (h.flags p) &&& Flags.treeProtected = 0#6 := by
    simpa [Heap.isProtected, Flags.has] using hpr
  have hl : h.isLinkRoot p = false ∧ (h.flags p).has Flags.linked = false := by
    simp only [Heap.isLinkRoot, Flags.has, Flags.linkRoot, Flags.linked, Flags.treeProtected, Flags.readOnlyTree, Flags.placeholder] at hb ⊢
    revert hb
    generalize h.flags p = f
    revert f; decide
  have hr : clear h p keep = ((clear h p keep).1, .ok ()) := by
    simp only [clear, hpr, hl, Bool.false_and, Bool.false_eq_true, if_false]
  obtain ⟨a, b, c, d, e, f, g, _, _⟩ := clear_spec R.core.wf hr
  refine ⟨_, hr, b, g, d, e, c, fun tg => ?_⟩
  refine ⟨.key, ?_⟩
  cases tg <;> simp only [getItem, b, if_true]

example : ∃ h', clear demo 0 false = (h', .ok ()) ∧ h'.kids 0 = [] ∧ (∀ i, i ≠ 0 → h'.node i = demo.node i) := by
  obtain ⟨h', a, b, _, _, _, c, _⟩ := C16_clear_partial demo_tidy.reach (p := 0) (by decide) false
  exact ⟨h', a, b, c⟩

/-- C16, negative part: the former children still name the cleared item as their parent … -/
theorem C16_clear_leftovers {ms : ModelSet} {h : Heap} (R : Reach ms h) {p c : Id} (hpr : h.isProtected p = false) (hc : c ∈ h.kids p) (hcp : c ≠ p) :
    (clear h p false).1.kids p = [] ∧ (clear h p false).1.par c = some p := by
  obtain ⟨h', e, a, _, _, _, b, _⟩ := C16_clear_partial R hpr false
  rw [e]
  exact ⟨a, by simp only [Heap.par]; rw [b c hcp]; exact par_child R.core.wf hc⟩

/-- … and `clear` drops the value protection although it should only touch LOAD_LINKS. -/
theorem C16_clear_drops_flags : (let h := (setValueReadOnly demo 1).1; h.flags 1 = Flags.readOnlyValue ∧ (clear h 1 false).2 = .ok () ∧
    (clear h 1 false).1.flags 1 = 0#6) := by decide

end ITree
