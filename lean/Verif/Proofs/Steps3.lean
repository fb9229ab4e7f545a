import Verif.Proofs.Steps2
/-
insert with failures, move, and the reordering calls.
-/
namespace ITree

/-! ### insert: failures -/

theorem insertAt_err {h h' : Heap} (W : WF h) {p x : Id} {k : Int} {e : Err} (hk : h.kids p ≠ []) (hr : insertAt h p x k = (h', .error e)) :
    e = .attribute ∨ e = .type := by
  obtain ⟨F, hb, hf, hO⟩ := W.bound hk
  unfold insertAt at hr
  split at hr
  · simp at hr
  · simp only [hb, Option.getD_some] at hr
    split at hr
    · simp at hr
    · next fam hg =>
      split at hr
      · next e' he =>
        have hee : e' = e := by
          simp only [Prod.mk.injEq, Except.error.injEq] at hr; exact hr.2
        subst hee
        have hsub := hO.sub hg
        refine famInsIdxAux_err _ _ _ _ _ _ ?_ ?_ (by omega) he
        · intro h1 H y hy e1 he1
          have hy' := hsub y hy
          obtain ⟨r, q1, q2, _, q4, _⟩ := W.kid_parent p y hy'
          obtain ⟨r', a1, a2, _, a4, _⟩ := H.parent_some (i := y) (r := r) (by simpa using q1)
          refine idx_err a1 (a4 q4) ?_ he1
          rw [H.kids, a2, q2]
          simp only [kids_setItems, if_true, pyInsert]
          rw [mem_insertIdx' (pyInsPos_le _ _)]
          exact Or.inr hy'
        · intro e2; rw [hO.get] at hg; split at hg
          · simp at hg
          · simp only [Option.some.injEq] at hg; rw [e2] at hg; contradiction
      · simp at hr

theorem prepItem_keeps {h : Heap} (C : Core h) (a : Arg) : Keeps h (prepItem h a).1 := by
  cases hr : (prepItem h a).2 with
  | error e => rw [(prepItem_err (show prepItem h a = ((prepItem h a).1, .error e) by rw [← hr])).1]; exact Keeps.refl C
  | ok x =>
    rcases prepItem_ok (show prepItem h a = ((prepItem h a).1, .ok x) by rw [← hr]) with ⟨_, _, _, e, _⟩ | ⟨v, _, A⟩
    · rw [e]; exact Keeps.refl C
    · exact A.keeps C rfl

theorem insertPos_ceq (h : Heap) (p : Id) (tg : Target) : CEq h (insertPos h p tg).1 := by
  unfold insertPos
  split
  · exact CEq.refl h
  · exact CEq.refl h
  · split
    · exact CEq.refl h
    · exact CEq.refl h
    · dsimp only; split <;> exact idx_ceq _ _

/-- a failing `insert` that does not stop in the middle of the family search leaves a consistent heap -/
theorem insert_err {h h' : Heap} (C : Core h) {p : Id} {a : Arg} {tg : Option Target} {e : Err} (hp : p < h.next)
    (h1 : e ≠ .attribute) (h2 : e ≠ .type) (hr : insert h p tg a = (h', .error e)) :
    Keeps h h' ∧ ∀ i, i < h.next → h'.kids i = h.kids i ∧ h'.par i = h.par i := by
  have base : Keeps h h ∧ ∀ i, i < h.next → h.kids i = h.kids i ∧ h.par i = h.par i := ⟨Keeps.refl C, fun i _ => ⟨rfl, rfl⟩⟩
  unfold insert at hr
  split at hr
  · rw [append_err hr]; exact base
  · next tg' =>
    dsimp only at hr
    split at hr
    · simp at hr; rw [← hr.1]; exact base
    · split at hr
      · next e' he =>
        simp only [Prod.mk.injEq] at hr
        rw [← hr.1, (prepItem_err (show prepItem h a = ((prepItem h a).1, .error e') by rw [← he])).1]; exact base
      · next x hx =>
        split at hr
        · simp at hr
        · next hne =>
          have K := prepItem_keeps C a
          have H := insertPos_ceq (prepItem h a).1 p tg'
          have K2 := H.keeps K.core
          split at hr
          · simp only [Prod.mk.injEq] at hr
            rw [← hr.1]
            refine ⟨K.trans K2, fun i hi => ?_⟩
            have hn := prepItem_node (show prepItem h a = ((prepItem h a).1, .ok x) by rw [← hx]) hi
            rw [H.kids, H.par']
            simp only [Heap.kids, Heap.par, hn, and_self]
          · rcases insertAt_err K2.core.wf (by rw [H.kids]; exact hne) hr with rfl | rfl
            · exact (h1 rfl).elim
            · exact (h2 rfl).elim

/-! ### move -/

/-- item `x` now stands at position `n` among the children of `p` (counted without `x`) -/
structure MoveSpec (h h' : Heap) (p x : Id) (n : Nat) : Prop where
  wf : WF h'
  kids : h'.kids p = ((h.kids p).erase x).insertIdx n x
  le : n ≤ ((h.kids p).erase x).length
  frame : Frame h h' (· = p) (fun _ => False)

theorem MoveSpec.of {h h1 h' : Heap} (W : WF h) {p x : Id} {m n : Nat} (D : DetachRel h h1 p x m) (P : PlaceSpec h1 h' p (.item x) x n) : MoveSpec h h' p x n := by
  have hx := List.mem_of_getElem? D.at_n
  have her : (h.kids p).eraseIdx m = (h.kids p).erase x := by
    rw [List.erase_eq_eraseIdx_of_idxOf]; exact nodup_idxOf_unique (W.kids_nodup p) D.at_n
  have hk : h1.kids p = (h.kids p).erase x := by rw [D.kids_p, her]
  refine ⟨P.wf, by rw [P.kids, hk], by rw [← hk]; exact P.le, ?_⟩
  have F1 := D.frame
  have F2 := P.frame
  have hnx := D.next
  refine ⟨?_, ?_, ?_, ?_, ?_, ?_, ?_⟩
  · have := F2.next; omega
  · intro i hi; rw [F2.tag i (by omega), D.tag]
  · intro i hi; rw [F2.value i (by omega), D.value]
  · intro i hi; rw [F2.flags i (by omega), D.flags]
  · intro i hi; rw [F2.link i (by omega), D.link]
  · intro i hi e; rw [F2.kids i (by omega) e, D.kids_o i e]
  · intro i hi _
    by_cases e : i = x
    · subst e; rw [P.par, par_child W hx]
    · rw [F2.par i (by omega) e, D.par', if_neg e]

theorem DetachRel.not_below {h h1 : Heap} (F : Forest h) {p x : Id} {m : Nat} (D : DetachRel h h1 p x m) : ¬ Below h1 x p := by
  intro b
  refine F.irrefl (List.mem_of_getElem? D.at_n) ?_
  clear F
  generalize p = q at b ⊢
  induction b with
  | refl => exact Below.refl
  | @step q c _ hc ih =>
    refine ih.step ?_
    by_cases e : q = p
    · subst e; rw [D.kids_p] at hc; exact mem_of_eraseIdx hc
    · rwa [D.kids_o q e] at hc

/-- the second half of a successful move to index `k` -/
theorem moveIns {h h1 h' : Heap} (C : Core h) {p x y z : Id} {k : Int} {m : Nat} (hp : p < h.next) (hm : (h.kids p)[m]? = some x)
    (hd : delByItem h p x = (h1, .ok y)) (hk : -((h.kids p).length - 1 : Int) ≤ k) (hr : insert h1 p (some (.int k)) (.item y) = (h', .ok z)) :
    MoveSpec h h' p x (pyInsPos ((h.kids p).length - 1) k) ∧ Keeps h h' := by
  obtain ⟨rfl, D⟩ := delByItem_ok C.wf C.nocov hm hd
  have hx := List.mem_of_getElem? hm
  have hl := (List.getElem?_eq_some_iff.1 hm).1
  have hlen : (h1.kids p).length = (h.kids p).length - 1 := by rw [D.kids_p, List.length_eraseIdx_of_lt hl]
  have K := D.keeps C
  have P := insert_spec K.core.wf (p := p) (by rw [D.next]; exact hp) (by rintro _ ⟨⟩; rw [D.next]; exact C.wf.kids_lt p _ hx) (by rw [hlen]; omega) hr
  obtain ⟨rfl, -⟩ := P.item _ rfl
  rw [hlen] at P
  exact ⟨MoveSpec.of C.wf D P, K.trans (P.keeps K.core (by rintro _ ⟨⟩; exact D.not_below C.forest))⟩

theorem moveFail {h h1 h' : Heap} (C : Core h) {p x y : Id} {k : Int} {m : Nat} {e : Err} (hp : p < h.next) (hm : (h.kids p)[m]? = some x)
    (hd : delByItem h p x = (h1, .ok y)) (e1 : e ≠ .attribute) (e2 : e ≠ .type)
    (hr : insert h1 p (some (.int k)) (.item y) = (h', .error e)) : Keeps h h' := by
  obtain ⟨rfl, D⟩ := delByItem_ok C.wf C.nocov hm hd
  have K := D.keeps C
  exact K.trans (insert_err K.core (by rw [D.next]; exact hp) e1 e2 hr).1

theorem CEq.ok_next {h h' : Heap} (H : CEq h h') {p : Id} (hp : p < h.next) : p < h'.next := by rw [H.next]; exact hp

/-- `move` without target: to the end -/
theorem moveEnd_spec {h h' : Heap} (C : Core h) {p x z : Id} (hx : x ∈ h.kids p) (hr : move h x none = (h', .ok z)) :
    MoveSpec h h' p x ((h.kids p).length - 1) ∧ Keeps h h' := by
  have W := C.wf
  obtain ⟨m, hm⟩ := List.getElem?_of_mem hx
  obtain ⟨r, r1, r2, _⟩ := W.kid_parent p x hx
  have hp : p < h.next := by
    by_contra hc; have := (W.fresh p (by omega)).1; rw [this] at hx; simp at hx
  unfold move at hr
  simp only [r1, r2] at hr
  generalize (h.isProtected p && (if h.isLinkRoot p = true then h.linkLoaded p && (h.linkTags p).contains (h.tag x) else true)) = bad at hr
  split at hr
  · simp at hr
  · split at hr
    · simp at hr
    · next y hy =>
      obtain ⟨rfl, D⟩ := delByItem_ok W C.nocov hm (show delByItem h p x = ((delByItem h p x).1, .ok y) by rw [← hy])
      have hl := (List.getElem?_eq_some_iff.1 hm).1
      have hlen : ((delByItem h p y).1.kids p).length = (h.kids p).length - 1 := by rw [D.kids_p, List.length_eraseIdx_of_lt hl]
      have K := D.keeps C
      have P := append_spec K.core.wf (p := p) (by rw [D.next]; exact hp) (by rintro _ ⟨⟩; rw [D.next]; exact W.kids_lt p _ hx) hr
      obtain ⟨rfl, -⟩ := P.item _ rfl
      rw [hlen] at P
      exact ⟨MoveSpec.of W D P, K.trans (P.keeps K.core (by rintro _ ⟨⟩; exact D.not_below C.forest))⟩

/-- `move` to an index, and to the place of the child a target leads to -/
theorem moveTo_spec {h h' : Heap} (C : Core h) {p x z : Id} (hx : x ∈ h.kids p) {k : Int} (hk : -((h.kids p).length - 1 : Int) ≤ k)
    (hr : move h x (some (.int k)) = (h', .ok z)) : MoveSpec h h' p x (pyInsPos ((h.kids p).length - 1) k) ∧ Keeps h h' := by
  have W := C.wf
  obtain ⟨m, hm⟩ := List.getElem?_of_mem hx
  obtain ⟨r, r1, r2, _⟩ := W.kid_parent p x hx
  have hp : p < h.next := by
    by_contra hc; have := (W.fresh p (by omega)).1; rw [this] at hx; simp at hx
  unfold move at hr
  simp only [r1, r2] at hr
  generalize (h.isProtected p && (if h.isLinkRoot p = true then h.linkLoaded p && (h.linkTags p).contains (h.tag x) else true)) = bad at hr
  split at hr
  · simp at hr
  · split at hr
    · simp at hr
    · next y hy => exact moveIns C hp hm (by rw [← hy]) hk hr

theorem MoveSpec.ofCEq {h h1 h' : Heap} {p x n} (H : CEq h h1) (S : MoveSpec h1 h' p x n) : MoveSpec h h' p x n := by
  have F := S.frame
  have hnx := H.next
  refine ⟨S.wf, by rw [S.kids, H.kids], by rw [← H.kids]; exact S.le, ?_⟩
  refine ⟨?_, ?_, ?_, ?_, ?_, ?_, ?_⟩
  · have := F.next; omega
  · intro i hi; rw [F.tag i (by omega), H.tag]
  · intro i hi; rw [F.value i (by omega), H.value]
  · intro i hi; rw [F.flags i (by omega), H.flags]
  · intro i hi; rw [F.link i (by omega), H.link]
  · intro i hi e; rw [F.kids i (by omega) e, H.kids]
  · intro i hi e; rw [F.par i (by omega) e, H.par']

theorem moveTarget_spec {h h' : Heap} (C : Core h) {p x y z : Id} (hx : x ∈ h.kids p) {tg : Target} (htg : ∀ k, tg ≠ .int k)
    (hg : getItem h p tg = .ok (.one y)) {n : Nat} (hy : (h.kids p)[n]? = some y)
    (hr : move h x (some tg) = (h', .ok z)) : MoveSpec h h' p x (pyInsPos ((h.kids p).length - 1) n) ∧ Keeps h h' := by
  have W := C.wf
  obtain ⟨m, hm⟩ := List.getElem?_of_mem hx
  obtain ⟨r, r1, r2, _⟩ := W.kid_parent p x hx
  have hp : p < h.next := by
    by_contra hc; have := (W.fresh p (by omega)).1; rw [this] at hx; simp at hx
  obtain ⟨m', e1, e2⟩ := idx_child W (List.mem_of_getElem? hy)
  have hmn : m' = n := by rw [← nodup_idxOf_unique (W.kids_nodup p) hy, nodup_idxOf_unique (W.kids_nodup p) e2]
  subst hmn
  have H := idx_ceq h y
  unfold move at hr
  simp only [r1, r2] at hr
  generalize (h.isProtected p && (if h.isLinkRoot p = true then h.linkLoaded p && (h.linkTags p).contains (h.tag x) else true)) = bad at hr
  split at hr
  · simp at hr
  · simp only [hg, e1] at hr
    have K := H.keeps C
    split at hr
    · simp at hr
    · next y' hy' =>
      have := moveIns K.core (p := p) (x := x) (m := m) (H.ok_next hp) (by rw [H.kids]; exact hm) (by rw [← hy']) (by
        rw [H.kids]; have := (List.getElem?_eq_some_iff.1 hy).1; omega) hr
      rw [H.kids] at this
      exact ⟨this.1.ofCEq H, K.trans this.2⟩

/-- `move` in general keeps everything consistent unless the family search fails -/
theorem move_keeps {h : Heap} (C : Core h) {p x : Id} (hx : x ∈ h.kids p) (tg : Option Target)
    (hk : ∀ k, tg = some (.int k) → -((h.kids p).length - 1 : Int) ≤ k)
    (h1 : (move h x tg).2 ≠ .error .attribute) (h2 : (move h x tg).2 ≠ .error .type) : Keeps h (move h x tg).1 := by
  have W := C.wf
  obtain ⟨m, hm⟩ := List.getElem?_of_mem hx
  obtain ⟨r, r1, r2, _⟩ := W.kid_parent p x hx
  have hp : p < h.next := by
    by_contra hc; have := (W.fresh p (by omega)).1; rw [this] at hx; simp at hx
  have hl := (List.getElem?_eq_some_iff.1 hm).1
  have ins : ∀ (g : Heap) (k : Int) (y : Id), Core g → g.kids p = h.kids p → p < g.next → (delByItem g p x).2 = .ok y →
      -((h.kids p).length - 1 : Int) ≤ k →
      (insert (delByItem g p x).1 p (some (.int k)) (.item y)).2 ≠ .error .attribute →
      (insert (delByItem g p x).1 p (some (.int k)) (.item y)).2 ≠ .error .type →
      Keeps g (insert (delByItem g p x).1 p (some (.int k)) (.item y)).1 := by
    intro g k y Cg hgk hpg hy hk a1 a2
    have hmg : (g.kids p)[m]? = some x := by rw [hgk]; exact hm
    cases hr : (insert (delByItem g p x).1 p (some (.int k)) (.item y)).2 with
    | ok z => exact (moveIns Cg hpg hmg (by rw [← hy]) (by rw [hgk]; exact hk) (show insert (delByItem g p x).1 p (some (.int k)) (.item y) = (_, .ok z) by rw [← hr])).2
    | error e =>
      rw [hr] at a1 a2
      exact moveFail Cg hpg hmg (show delByItem g p x = ((delByItem g p x).1, .ok y) by rw [← hy]) (by simpa using a1) (by simpa using a2)
        (show insert (delByItem g p x).1 p (some (.int k)) (.item y) = (_, .error e) by rw [← hr])
  revert h1 h2
  unfold move
  simp only [r1, r2]
  generalize (h.isProtected p && (if h.isLinkRoot p = true then h.linkLoaded p && (h.linkTags p).contains (h.tag x) else true)) = bad
  split
  · intro _ _; exact Keeps.refl C
  · split
    · split
      · intro _ _; exact delByItem_keeps C p x
      · next y hy =>
        intro _ _
        cases hr : (append (delByItem h p x).1 p (.item y)).2 with
        | ok z =>
          obtain ⟨rfl, D⟩ := delByItem_ok W C.nocov hm (show delByItem h p x = ((delByItem h p x).1, .ok y) by rw [← hy])
          have K := D.keeps C
          have P := append_spec K.core.wf (p := p) (x := z) (by rw [D.next]; exact hp) (by rintro _ ⟨⟩; rw [D.next]; exact W.kids_lt p _ hx)
            (show append (delByItem h p y).1 p (.item y) = ((append (delByItem h p y).1 p (.item y)).1, .ok z) by rw [← hr])
          exact K.trans (P.keeps K.core (by rintro _ ⟨⟩; exact D.not_below C.forest))
        | error e =>
          rw [append_err (show append (delByItem h p x).1 p (.item y) = ((append (delByItem h p x).1 p (.item y)).1, .error e) by rw [← hr])]
          exact delByItem_keeps C p x
    · next k =>
      split
      · intro _ _; exact delByItem_keeps C p x
      · next y hy => intro a1 a2; exact ins h k y C rfl hp hy (hk k rfl) a1 a2
    · split
      · intro _ _; exact Keeps.refl C
      · intro _ _; exact Keeps.refl C
      · next y hy =>
        have H := idx_ceq h y
        have K := H.keeps C
        split
        · intro _ _; exact K
        · intro _ _; exact K
        · next k hkk =>
          have hk0 : 0 ≤ k := by
            obtain ⟨m', e1, _⟩ := idx_child W (getItem_one W hy)
            rw [hkk] at e1; simp at e1; omega
          split
          · intro _ _; exact K.trans (delByItem_keeps K.core p x)
          · next z hz => intro a1 a2; exact K.trans (ins _ k z K.core (H.kids p) (H.ok_next hp) hz (by omega) a1 a2)

/-! ### reordering -/

theorem PermRel.keeps {h h' : Heap} {p L} (R : PermRel h h' p L) (C : Core h) : Keeps h h' := by
  refine ⟨⟨R.wf C.wf, ?_, ?_⟩, Nat.le_of_eq R.next.symm, ?_⟩
  · refine C.forest.sub fun q c hc => ?_
    by_cases e : q = p
    · subst e; rw [R.kids_p] at hc; exact R.perm.mem_iff.1 hc
    · rwa [R.kids_o q e] at hc
  · intro y; have := C.nocov y; simp only [coverOf, R.link] at this ⊢; exact this
  · intro Z c q hc
    simp only [Heap.par, R.parent] at hc
    have := Z c q hc
    by_cases e : q = p
    · subst e; rw [R.kids_p]; exact R.perm.mem_iff.2 this
    · rwa [R.kids_o q e]

theorem setItems_self (h : Heap) (p : Id) : h.setItems p (h.kids p) = h := by
  obtain ⟨n, node⟩ := h
  simp only [Heap.setItems, Heap.modify, Heap.kids, Heap.mk.injEq, and_true]
  funext i
  by_cases e : i = p
  · subst e; simp
  · simp [e]

theorem reverse_keeps {h : Heap} (C : Core h) (p : Id) : Keeps h (reverse h p).1 := by
  cases hr : (reverse h p).2 with
  | ok u =>
    rcases reverse_spec C.wf (show reverse h p = ((reverse h p).1, .ok ()) by rw [← hr]) with e | R
    · rw [e]; exact Keeps.refl C
    · exact R.keeps C
  | error e =>
    suffices (reverse h p).1 = h by rw [this]; exact Keeps.refl C
    revert hr
    unfold reverse
    split
    · intro _; rfl
    · intro _; rfl
    · split
      · next hf =>
        intro _
        have : h.kids p = [] := by
          by_contra hc
          obtain ⟨F, hF, _⟩ := C.wf.fams_ok p hc
          rw [hF] at hf; simp at hf
        have h2 := setItems_self h p
        rw [this] at h2 ⊢
        exact h2
      · simp

theorem popMany_keeps {p : Id} {k : Int} : ∀ (n : Nat) {h : Heap}, Core h → Keeps h (popMany h p k n).1 := by
  intro n
  induction n with
  | zero => intro h C; exact Keeps.refl C
  | succ n ih =>
    intro h C
    have K := delInt_keeps C p k
    simp only [popMany]
    split
    · exact K
    · have := K.trans (ih K.core)
      split <;> exact this

theorem RearrSpec.keeps {h h' : Heap} {p L} (S : RearrSpec h h' p L) (C : Core h) : Keeps h h' := ⟨⟨S.wf, S.forest C.forest, S.nocov⟩, S.frame.next, S.nz⟩

theorem rotate_keeps {h : Heap} (C : Core h) {p : Id} (hp : p < h.next) (n : Int) : Keeps h (rotate h p n).1 := by
  cases hr : (rotate h p n).2 with
  | ok u =>
    have hr' : rotate h p n = ((rotate h p n).1, .ok ()) := by rw [← hr]
    cases hg : guardReorder h p with
    | error e => unfold rotate; simp only [hg]; exact Keeps.refl C
    | ok b =>
      cases b with
      | false => unfold rotate; simp only [hg]; exact Keeps.refl C
      | true =>
        rcases Int.lt_trichotomy 0 n with h0 | h0 | h0
        · exact (rotate_pos C.wf C.nocov hp h0 hg hr').2.keeps C
        · subst h0; unfold rotate; simp only [hg]; exact Keeps.refl C
        · exact (rotate_neg C.wf C.nocov hp h0 hg hr').2.keeps C
  | error e =>
    revert hr
    unfold rotate
    split
    · intro _; exact Keeps.refl C
    · intro _; exact Keeps.refl C
    · split
      · dsimp only
        split
        · intro _; exact popMany_keeps _ C
        · intro hr
          generalize hq : extendLeft _ p _ = q at hr ⊢
          obtain ⟨q1, q2⟩ := q
          subst hr
          rw [extendLeft_err hq]
          exact popMany_keeps _ C
      · split
        · dsimp only
          split
          · intro _; exact popMany_keeps _ C
          · intro hr
            generalize hq : extend _ p _ = q at hr ⊢
            obtain ⟨q1, q2⟩ := q
            subst hr
            rw [extend_err hq]
            exact popMany_keeps _ C
        · intro _; exact Keeps.refl C

/-- `sort` and `clear` keep everything but the absence of stray parent references: the old children still name the item as parent -/
theorem sort_err {h : Heap} {p : Id} {key rev e} (hr : (sort h p key rev).2 = .error e) : (sort h p key rev).1 = h := by
  revert hr
  unfold sort
  split
  · intro _; rfl
  · intro _; rfl
  · next hg =>
    intro hr
    exfalso
    have hnp : h.isProtected p = false := by
      unfold guardReorder at hg
      split at hg
      · split at hg <;> simp at hg
      · next hh => simpa using hh
    have : (hollow h p).isProtected p = false := by
      have := (hollow_facts h p).2.2.1 p
      unfold Heap.isProtected at hnp ⊢
      rw [this]; exact hnp
    have hg2 : guardExtend (hollow h p) p ((sortKeyed key rev (h.kids p)).map Arg.item) = none := by
      unfold guardExtend; rw [this]; rfl
    have hr : (extend (hollow h p) p ((sortKeyed key rev (h.kids p)).map Arg.item)).2 = .error e := hr
    unfold extend at hr
    rw [hg2] at hr
    simp at hr

theorem sort_core {h : Heap} (C : Core h) {p : Id} (hp : p < h.next) (key rev) : Core (sort h p key rev).1 ∧ h.next ≤ (sort h p key rev).1.next := by
  cases hr : (sort h p key rev).2 with
  | error e => rw [sort_err hr]; exact ⟨C, Nat.le_refl _⟩
  | ok u =>
    cases hg : guardReorder h p with
    | error e => unfold sort; simp only [hg]; exact ⟨C, Nat.le_refl _⟩
    | ok b =>
      cases b with
      | false => unfold sort; simp only [hg]; exact ⟨C, Nat.le_refl _⟩
      | true =>
        obtain ⟨xs, S⟩ := sort_spec C.wf hp hg (show sort h p key rev = ((sort h p key rev).1, .ok ()) by rw [← hr])
        exact ⟨⟨S.wf, S.forest C.forest, S.nocov C.nocov⟩, S.frame.next⟩

theorem clear_core {h : Heap} (C : Core h) (p : Id) (kv) : Core (clear h p kv).1 ∧ h.next ≤ (clear h p kv).1.next := by
  cases hr : (clear h p kv).2 with
  | ok u =>
    obtain ⟨a, b, c, d, e, f, g, i, j⟩ := clear_spec C.wf (show clear h p kv = ((clear h p kv).1, .ok ()) by rw [← hr])
    refine ⟨⟨a, C.forest.sub fun q x hx => ?_, j C.nocov⟩, Nat.le_of_eq f.symm⟩
    by_cases e : q = p
    · subst e; rw [b] at hx; simp at hx
    · simpa only [Heap.kids, c q e] using hx
  | error e =>
    revert hr
    unfold clear
    split
    · intro _; exact ⟨C, Nat.le_refl _⟩
    · dsimp only
      have key : Core (if h.isLinkRoot p then h.modify p fun n => { n with link := n.link.map fun l => { l with loaded := true } } else h) ∧
          h.next ≤ (if h.isLinkRoot p then h.modify p fun n => { n with link := n.link.map fun l => { l with loaded := true } } else h).next := by
        split
        · have S : StructEq h (h.modify p fun n => { n with link := n.link.map fun l => { l with loaded := true } }) :=
            DataOnly.structEq (f := fun n => { n with link := n.link.map fun l => { l with loaded := true } })
              ⟨fun _ => rfl, fun _ => rfl, fun _ => rfl, fun _ => rfl, fun _ => rfl⟩ h p
          refine ⟨⟨S.wf C.wf, S.forest C.forest, fun y => ?_⟩, Nat.le_refl _⟩
          have := C.nocov y
          by_cases e : y = p
          · subst e
            simp only [coverOf, node_modify, if_true] at this ⊢
            cases hl : (h.node y).link <;> simp_all
          · simp only [coverOf, node_modify, if_neg e] at this ⊢; exact this
        · exact ⟨C, Nat.le_refl _⟩
      generalize (if h.isLinkRoot p then h.modify p fun n => { n with link := n.link.map fun l => { l with loaded := true } } else h) = h1 at key ⊢
      split
      · intro _; exact key
      · intro hr; simp at hr

theorem rename_keeps {h : Heap} (C : Core h) {x : Id} (g : Tag)
    (hx : h.par x = none ∨ ∃ p, x ∈ h.kids p ∧ ∀ y ∈ h.kids p, h.tag y = h.tag x → y ≠ x → h.eqItem y x = false) : Keeps h (rename h x g).1 := by
  rcases hx with hx | ⟨p, hx, heq⟩
  · have : (h.node x).parent = none := by
      cases hh : (h.node x).parent with
      | none => rfl
      | some r => simp [Heap.par, hh] at hx
    obtain ⟨h', e, S⟩ := rename_free C.wf (g := g) this
    rw [e]; exact S.keeps C
  · obtain ⟨n, hn⟩ := List.getElem?_of_mem hx
    rcases rename_child C.wf (g := g) hn heq with ⟨_, he⟩ | ⟨h', he, S⟩
    · rw [he]; exact Keeps.refl C
    · rw [he]; exact S.keeps C

/-! ### constructor -/

theorem setFlagsInit_data (f) : ∀ (l : List Id) (h : Heap), DataEq h (setFlagsInit h f l) := by
  intro l
  induction l with
  | nil => intro h; exact DataEq.refl h
  | cons x xs ih => intro h; exact (dataEq_flags h x (· ||| f)).trans (ih _)

theorem not_below_top {h : Heap} (W : WF h) {p i : Id} (hp : (h.node p).parent = none) (hi : i ≠ p) : ¬ Below h i p := by
  intro b
  cases b with
  | refl => exact hi rfl
  | step _ hc => exact W.not_child hp _ hc

theorem initLoop_keeps {p : Id} {f : Flags} : ∀ (as : List Arg) {h : Heap} (idx : Nat), Core h → p < h.next → (h.node p).stale = none → (h.node p).parent = none →
    (∀ i, Arg.item i ∈ as → i < h.next ∧ i ≠ p) → Keeps h (initLoop h p idx f as) ∧ ((initLoop h p idx f as).node p).parent = none := by
  intro as
  induction as with
  | nil => intro h idx C _ _ hq _; exact ⟨Keeps.refl C, hq⟩
  | cons a as ih =>
    intro h idx C hp hs hpp ha
    have P := extPick_spec C.wf a (fun i e => (ha i (by simp [e])).1)
    have A := extendOne_attach C.wf hp hs idx a (fun i e => (ha i (by simp [e])).1)
    have hpn := P.node p hp
    have hk : (extPick h a).1.kids p = h.kids p := by simp only [Heap.kids, hpn]
    have hple : p < (extPick h a).1.next := Nat.lt_of_lt_of_le hp P.unchanged.next
    have hne : (extPick h a).2 ≠ p := by
      rcases P.what with ⟨i, rfl, _, e, _⟩ | ⟨i, rfl, _, c⟩ | ⟨v, rfl, c⟩
      · rw [e]; exact (ha i (by simp)).2
      · rw [c.root]; omega
      · rw [c.id]; omega
    have C1 : Core (extPick h a).1 := ⟨P.wf, P.forest C.forest, P.nocov C.nocov⟩
    have K1 : Keeps h (extPick h a).1 := ⟨C1, P.unchanged.next, P.nz⟩
    have hpp1 : ((extPick h a).1.node p).parent = none := by rw [hpn]; exact hpp
    have K2 : Keeps h (extendOne h p idx a) :=
      K1.trans (A.keeps C1 hple P.lt (by rw [hk]) P.par (not_below_top P.wf hpp1 hne))
    have hpp2 : ((extendOne h p idx a).node p).parent = none := by
      have := A.par_o p (Ne.symm hne)
      rw [hpp1] at this
      cases h3 : ((extendOne h p idx a).node p).parent with
      | none => rfl
      | some r => rw [h3] at this; exact this.elim
    have hst2 : ((extendOne h p idx a).node p).stale = none := A.stale_p
    simp only [initLoop, initStep]
    have fin : ∀ h2 : Heap, DataEq (extendOne h p idx a) h2 → Keeps h (initLoop h2 p (idx + 1) f as) ∧ ((initLoop h2 p (idx + 1) f as).node p).parent = none := by
      intro h2 D
      have K3 := K2.trans (D.keeps K2.core)
      obtain ⟨q1, q2⟩ := ih (idx + 1) K3.core (Nat.lt_of_lt_of_le hp K3.le) (by rw [D.str.stale]; exact hst2) (by rw [D.str.parent]; exact hpp2)
        (fun i hi => ⟨Nat.lt_of_lt_of_le (ha i (by simp [hi])).1 K3.le, (ha i (by simp [hi])).2⟩)
      exact ⟨K3.trans q1, q2⟩
    split
    · split
      · exact fin _ (DataEq.refl _)
      · exact fin _ (setFlagsInit_data _ _ _)
    · exact fin _ (DataEq.refl _)

theorem newItem_keeps {h : Heap} (C : Core h) (t v sub f) (ha : ∀ i, Arg.item i ∈ sub → i < h.next) : Keeps h (newItem h t v sub f).1 := by
  have A : AllocRel h (h.alloc { tag := t, value := v, flags := f }).1 (h.alloc { tag := t, value := v, flags := f }).2 { tag := t, value := v, flags := f } :=
    ⟨rfl, rfl, rfl, rfl, Or.inl rfl⟩
  have K := A.keeps C rfl
  unfold newItem
  split
  · exact K
  · have hk : ((h.alloc { tag := t, value := v, flags := f }).1.node h.next) = { tag := t, value := v, flags := f } := by simp [Heap.alloc]
    have hk0 : (h.alloc { tag := t, value := v, flags := f }).1.kids h.next = [] := by simp [Heap.kids, hk]
    have O := resetFams_obs (h := (h.alloc { tag := t, value := v, flags := f }).1) h.next (some []) none
    have Wr := resetFams_wf K.core.wf h.next hk0 none
    have hsame : ((h.alloc { tag := t, value := v, flags := f }).1.modify h.next fun n => { n with fams := some [] }) =
        ((h.alloc { tag := t, value := v, flags := f }).1.modify h.next fun n => { n with fams := some [], stale := none }) := by
      simp only [Heap.modify, Heap.mk.injEq, and_true]
      funext j
      by_cases e : j = h.next
      · subst e; simp [Heap.alloc]
      · simp [e]
    have hid : (h.alloc { tag := t, value := v, flags := f }).2 = h.next := rfl
    dsimp only
    rw [hid, hsame]
    have Kr : Keeps h ((h.alloc { tag := t, value := v, flags := f }).1.modify h.next fun n => { n with fams := some [], stale := none }) := by
      refine ⟨⟨Wr, K.core.forest.sub fun q c hc => by rwa [O.kids] at hc, fun y => ?_⟩, by rw [O.next]; exact K.le, fun Z c q hc => ?_⟩
      · have := K.core.nocov y; simp only [coverOf, O.link] at this ⊢; exact this
      · rw [O.kids]; rw [O.par] at hc; exact K.nz Z c q hc
    refine Kr.trans (initLoop_keeps _ 0 Kr.core ?_ ?_ ?_ ?_).1
    · simp [Heap.alloc]
    · simp
    · simp [Heap.alloc]
    · intro i hi; have := ha i hi; refine ⟨?_, by omega⟩
      simp [Heap.alloc]; omega

theorem newLink_keeps {h : Heap} (C : Core h) (t v sub f file path) (ha : ∀ i, Arg.item i ∈ sub → i < h.next) : Keeps h (newLink h t v sub f file path).1 := by
  have K := newItem_keeps C t v sub f ha
  unfold newLink
  generalize newItem h t v sub f = r at K ⊢
  have S : StructEq r.1 (r.1.modify h.next fun n => { n with flags := n.flags ||| Flags.linkRoot, link := some { file := file, path := path } }) :=
    DataOnly.structEq (f := fun n => { n with flags := n.flags ||| Flags.linkRoot, link := some { file := file, path := path } })
      ⟨fun _ => rfl, fun _ => rfl, fun _ => rfl, fun _ => rfl, fun _ => rfl⟩ _ _
  refine K.trans ⟨⟨S.wf K.core.wf, S.forest K.core.forest, fun y => ?_⟩, Nat.le_of_eq S.next.symm, S.noZombie⟩
  have := K.core.nocov y
  simp only [coverOf, node_modify] at this ⊢
  by_cases e : y = h.next
  · simp [e]
  · simp only [e, if_false]; exact this

end ITree
