import Verif.Proofs.FindLink
import Verif.Proofs.Separate2
import Verif.Spec.History
/-
Loading a link root without children keeps everything consistent.
-/
namespace ITree

/-- no item has an outdated dict with members -/
abbrev NoStale (h : Heap) : Prop := Sep (fun _ => False) False h

/-- the call keeps everything consistent, and leaves no outdated dicts -/
structure LKeeps (h h' : Heap) : Prop extends Keeps h h' where
  sn : NoStale h → NoStale h'

theorem LKeeps.refl {h : Heap} (C : Core h) : LKeeps h h := ⟨.refl C, id⟩
theorem LKeeps.trans {h1 h2 h3 : Heap} (A : LKeeps h1 h2) (B : LKeeps h2 h3) : LKeeps h1 h3 := ⟨A.toKeeps.trans B.toKeeps, fun s => B.sn (A.sn s)⟩

theorem NoStale.mk' {h : Heap} (H : ∀ i F, (h.node i).stale = some F → F = []) : NoStale h :=
  ⟨fun _ f => f.elim, fun i _ => ⟨fun _ _ => id, fun _ _ => id, fun _ _ _ _ _ _ => id, fun F e => ⟨.inr (H i F e), fun _ _ _ _ => id⟩, fun _ _ _ _ => id⟩⟩
theorem NoStale.nil {h : Heap} (S : NoStale h) {i : Id} {F : Fams} (e : (h.node i).stale = some F) : F = [] := ((S.out i id).stale F e).1.resolve_left id

theorem CEq.lkeeps {h h' : Heap} (E : CEq h h') (C : Core h) : LKeeps h h' := ⟨E.keeps C, fun s => .mk' fun i F e => s.nil (i := i) (by rw [← E.stale]; exact e)⟩

theorem setLink_keeps {h : Heap} (C : Core h) (p : Id) (f : LinkSt → LinkSt) (hf : ∀ l, (f l).cover = l.cover) : LKeeps h (h.setLink p f) := by
  have S := setLink_structEq h p f
  refine ⟨⟨⟨S.wf C.wf, S.forest C.forest, fun y => ?_⟩, Nat.le_of_eq S.next.symm, S.noZombie⟩, fun s => .mk' fun i F e => s.nil (i := i) ?_⟩
  rotate_left 1
  · rw [← e]; simp only [Heap.setLink, Heap.modify]; split <;> rfl
  have := C.nocov y
  unfold coverOf at this ⊢
  rw [setLink_link]
  by_cases e : y = p
  · rw [if_pos e]
    cases hl : (h.node y).link with
    | none => rfl
    | some l => rw [hl] at this; exact (hf l).trans this
  · rw [if_neg e]; exact this

theorem getTarget_keeps {h : Heap} (C : Core h) (fe : FileEnv) {p : Id} {lk : LinkSt} (hl : (h.node p).link = some lk) (ho : lk.OwnTree) :
    getTarget fe h p = (h.setLink p fun l => { l with path := dropRoot (h.tag (h.root p)) lk.path }, (getTarget fe h p).2) ∧
      ∀ s, (getTarget fe h p).2 = .ok s → LeadsTo h (h.root p) (dropRoot (h.tag (h.root p)) lk.path) s := by
  obtain ⟨q, e, hq⟩ := targetIn_spec C.wf (lk := lk) (h.root p) hl rfl
  rw [theFile_none hl ho.the, e]
  refine ⟨rfl, fun s hs => ?_⟩
  simp only at hs
  subst hs
  rcases hq with ⟨s', e', L⟩ | ⟨-, e', e''⟩
  · simp only [Except.ok.injEq] at e'; subst e'; exact L
  · cases e''

theorem loadLoop_keeps {load : Heap → Id → Res Bool} {p s : Id} : ∀ (cs : List Id) (h : Heap) (ks : List LKey), Core h → p < h.next → (∀ c ∈ cs, c < h.next) →
    (∀ c ∈ cs, (h.flags c).has Flags.linkRoot = false ∧ (h.flags c).has Flags.linked = false) →
    LKeeps h (loadLoop load p s h cs [] ks).1 ∧ (∀ r, (loadLoop load p s h cs [] ks).2 = .ok r → r.1 = []) := by
  intro cs
  induction cs with
  | nil => intro h ks C _ _ _; exact ⟨LKeeps.refl C, fun r hr => by simp only [loadLoop, Except.ok.injEq] at hr; rw [← hr]⟩
  | cons c cs ih =>
    intro h ks C hp hlt hpl
    have hT : (h.tree c).flags = h.flags c := by
      have R := tree_rep C.wf C.forest c
      have hid := tree_id h c
      generalize h.tree c = T at R hid
      obtain ⟨i, t, v, f, l, ks⟩ := T
      simp only [Tree.id] at hid; subst hid
      simp only [Rep] at R
      exact R.2.2.1.symm
    have e := linkedItem_plain load h c (hpl c (by simp)).1 (hpl c (by simp)).2 hT
    have B := build_spec C.wf (linkedTree (h.tree c))
    have K1 : LKeeps h (build h (linkedTree (h.tree c))).1 := ⟨B.keeps C, fun s => by
      have A := NI.alloc s (nodeOut_copy (N := fun _ => False) (Q := False) (linkedTree (h.tree c)))
      exact (A.1.trans (NI.buildKids _ A.1.sep A.2)).sep⟩
    simp only [loadLoop, e]
    generalize (build h (linkedTree (h.tree c))).1 = h1 at *
    generalize (build h (linkedTree (h.tree c))).2 = x at *
    have C2 := tagIdx_ceq h1 c
    have K2 := K1.trans (C2.lkeeps K1.core)
    generalize hg : h1.tagIdx c = g at *
    obtain ⟨h2, q⟩ := g
    simp only at C2 K2 ⊢
    rcases q with er | (_ | ⟨t, m⟩ | m)
    rotate_left 2
    rotate_left 1
    · exact ⟨K2, fun r hr => by cases hr⟩
    · exact ⟨K2, fun r hr => by cases hr⟩
    · exact ⟨K2, fun r hr => by cases hr⟩
    · simp only [List.map_nil, List.not_mem_nil, if_false]
      have hx2 : (h2.node x).parent = none := by
        exact (C2.parent_none x).2 B.par
      have hb : ¬ Below h2 x p := by
        intro hb
        obtain ⟨T, t1, t2, -, t4⟩ := B.rep
        have hb1 : Below h1 T.id p := by
          rw [t1]
          exact (Below.congr C2.kids).1 hb
        have := (t4 p ((below_iff_ids t2 p).1 hb1)).1
        omega
      have A := (appendItem_attach K2.core.wf (p := p) hx2).keeps K2.core (Nat.lt_of_lt_of_le hp K2.le) (by rw [C2.next]; exact B.lt) (Nat.le_refl _) hx2 hb
      have K3 := K2.trans ⟨A, fun s => (NI.appendItem s (p := p) (x := x) id id).sep⟩
      have fl : ∀ i, i < h.next → (appendItem h2 p x).flags i = h.flags i := by
        intro i hi
        rw [(appendItem_attach K2.core.wf (p := p) hx2).flags, C2.flags, B.unchanged.flags i hi]
      obtain ⟨i1, i2⟩ := ih (appendItem h2 p x) (ks ++ [(t, m.toNat)]) K3.core (Nat.lt_of_lt_of_le hp K3.le) (fun c' hc' => Nat.lt_of_lt_of_le (hlt c' (by simp [hc'])) K3.le)
        (fun c' hc' => by rw [fl c' (hlt c' (by simp [hc']))]; exact hpl c' (by simp [hc']))
      exact ⟨K3.trans i1, i2⟩

theorem dropKids_keeps {h : Heap} (C : Core h) {p : Id} (hk : h.kids p = []) : LKeeps h (dropKids h p) := by
  obtain ⟨f1, f2, f3, f4, f5, f6, f7, f8, f9⟩ := dropKids_facts h p
  have hkk : ∀ i, (dropKids h p).kids i = h.kids i := fun i => by
    rw [f2]
    split
    · next e => rw [e, hk]
    · rfl
  refine ⟨⟨⟨dropKids_wf C.wf p, C.forest.sub fun q x hx => by rw [hkk] at hx; exact hx, fun y => ?_⟩, Nat.le_of_eq f1.symm, fun Z x q hq => ?_⟩, fun s => .mk' fun i F e => ?_⟩
  · have := C.nocov y
    unfold coverOf at this ⊢
    rw [f7]; exact this
  · rw [hkk]
    refine Z x q ?_
    have : (dropKids h p).par x = h.par x := by simp only [dropKids, Heap.par, Heap.modify]; split <;> rfl
    rw [← this]; exact hq
  · simp only [dropKids, Heap.modify] at e
    split at e
    · next ei =>
      subst ei
      simp only at e
      cases hs : (h.node i).stale with
      | some G => rw [hs] at e; cases e; exact s.nil hs
      | none => rw [hs] at e; exact C.wf.fams_nil i F hk (by simpa using e)
    · exact s.nil e

theorem takeOver_keeps {load : Heap → Id → Res Bool} {h : Heap} (C : Core h) {p s : Id} (hp : p < h.next) (hk : h.kids p = [])
    (hpl : ∀ c ∈ h.kids s, (h.flags c).has Flags.linkRoot = false ∧ (h.flags c).has Flags.linked = false) :
    LKeeps h (takeOver load h p s).1 ∧ (takeOver load h p s).2 ≠ .ok false := by
  obtain ⟨h1, e1, C1, N1⟩ := numberKids_spec C.wf p
  have en : numbered h p = [] := by simp [numbered, hk]
  have eE : localItems h1 [] = [] := rfl
  have K1 := C1.lkeeps C
  have hk1 : h1.kids p = [] := by rw [C1.kids, hk]
  have K2 := K1.trans (dropKids_keeps K1.core hk1)
  obtain ⟨f1, f2, f3, f4, f5, f6, f7, f8, f9⟩ := dropKids_facts h1 p
  have hkk : ∀ i, (dropKids h1 p).kids i = h.kids i := fun i => by
    rw [f2]
    split
    · next e => rw [e, hk]
    · exact C1.kids i
  have hfl : ∀ i, (dropKids h1 p).flags i = h.flags i := fun i => by rw [f6, C1.flags]
  simp only [takeOver, e1, en, eE]
  generalize dropKids h1 p = h2 at *
  obtain ⟨L1, L2⟩ := loadLoop_keeps (load := load) (p := p) (s := s) (h2.kids s) h2 [] K2.core (Nat.lt_of_lt_of_le hp K2.le) (fun c hc => K2.core.wf.kids_lt s c hc)
    (fun c hc => by rw [hfl]; rw [hkk] at hc; exact hpl c hc)
  generalize hq : loadLoop load p s h2 (h2.kids s) [] [] = q at *
  obtain ⟨h3, er | ⟨E', ks⟩⟩ := q
  · exact ⟨K2.trans L1, fun e => by cases e⟩
  · obtain rfl : E' = [] := L2 (E', ks) rfl
    refine ⟨(K2.trans L1).trans ?_, fun e => by simp at e⟩
    exact setLink_keeps L1.core p (fun l => { l with tags := (ks.map (·.1)).eraseDups, keys := ks, loaded := true }) fun l => rfl

theorem loadActive_keeps (fe : FileEnv) {h : Heap} (C : Core h) {p : Id} {lk : LinkSt} (hl : (h.node p).link = some lk) (ho : lk.OwnTree) (force : Bool) :
    LKeeps h (loadActive (linkEnv fe) h p lk force).1 := by
  rw [loadActive]
  split
  · exact LKeeps.refl C
  · have hc : (linkEnv fe).changed h p = .ok false := by
      show fileUpdated fe h p = _
      simp only [fileUpdated, hl, ho.the]
    rw [hc]
    simp only
    split
    · exact LKeeps.refl C
    · have hf : (linkEnv fe).find h p = getTarget fe h p := rfl
      have K : LKeeps h (getTarget fe h p).1 := by rw [(getTarget_keeps C fe hl ho).1]; exact setLink_keeps C p _ fun l => rfl
      rw [hf]
      generalize getTarget fe h p = r at K
      obtain ⟨g, e | s⟩ := r
      · exact K
      · simp only
        split
        · exact K
        · split
          · exact K
          · have K3 : LKeeps h (keysOf g s fun _ => true).1 := by
              cases hF : (g.node s).fams with
              | none => simp only [keysOf, itemsOf, hF]; exact K
              | some F =>
                obtain ⟨h', e, C'⟩ := items_ok K.core.wf (p := s) (by rw [hF]; simp) fun _ => true
                simp only [keysOf, e]
                exact K.trans (C'.lkeeps K.core)
            generalize keysOf g s (fun _ => true) = q at K3
            obtain ⟨g', e | ks⟩ := q
            · exact K3
            · exact K3

end ITree
