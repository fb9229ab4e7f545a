import Verif.Spec.Nested
import Verif.Proofs.LoadKeeps
import Verif.Proofs.LoadLinks6
import Verif.Proofs.LoadAll
/-
Loading links whose targets contain link roots.
-/
namespace ITree

section
variable {h g : Heap} {X : Id → Prop}

theorem LoadsOnly.refl (X : Id → Prop) (h : Heap) : LoadsOnly X h h := ⟨Nat.le_refl _, fun _ _ => rfl, fun _ _ => rfl, fun _ _ => rfl, fun _ _ => rfl, fun _ _ _ => rfl, fun _ _ _ => rfl⟩

theorem LoadsOnly.trans {h1 h2 h3 : Heap} {X Y : Id → Prop} (A : LoadsOnly X h1 h2) (B : LoadsOnly Y h2 h3) : LoadsOnly (fun i => X i ∨ Y i) h1 h3 where
  next := Nat.le_trans A.next B.next
  tag i hi := (B.tag i (Nat.lt_of_lt_of_le hi A.next)).trans (A.tag i hi)
  value i hi := (B.value i (Nat.lt_of_lt_of_le hi A.next)).trans (A.value i hi)
  flags i hi := (B.flags i (Nat.lt_of_lt_of_le hi A.next)).trans (A.flags i hi)
  par i hi := (B.par i (Nat.lt_of_lt_of_le hi A.next)).trans (A.par i hi)
  kids i hi hn := (B.kids i (Nat.lt_of_lt_of_le hi A.next) fun c => hn (.inr c)).trans (A.kids i hi fun c => hn (.inl c))
  link i hi hn := (B.link i (Nat.lt_of_lt_of_le hi A.next) fun c => hn (.inr c)).trans (A.link i hi fun c => hn (.inl c))

/-- what happens to new items does not matter -/
theorem LoadsOnly.mono (A : LoadsOnly X h g) {Y : Id → Prop} (hY : ∀ i, i < h.next → X i → Y i) : LoadsOnly Y h g :=
  ⟨A.next, A.tag, A.value, A.flags, A.par, fun i hi hn => A.kids i hi fun c => hn (hY i hi c), fun i hi hn => A.link i hi fun c => hn (hY i hi c)⟩

theorem LoadsOnly.isRoot (A : LoadsOnly X h g) {i : Id} (hi : i < h.next) : g.isLinkRoot i = h.isLinkRoot i := by simp only [Heap.isLinkRoot, A.flags i hi]

theorem CEq.loadsOnly (E : CEq h g) (X : Id → Prop) : LoadsOnly X h g :=
  ⟨Nat.le_of_eq E.next.symm, fun i _ => E.tag i, fun i _ => by rw [E.node i], fun i _ => E.flags i, fun i _ => E.par' i, fun i _ _ => E.kids i, fun i _ _ => by rw [E.node i]⟩

theorem LoadsOnly.root (C : Core h) (Z : NoZombie h) (A : LoadsOnly X h g) {x : Id} (hx : x < h.next) : g.root x = h.root x ∧ h.root x < h.next := by
  obtain ⟨k, r, e1, e2, e3⟩ := climb C Z x
  have up : ∀ k x, x < h.next → ∀ r, ancestor h k x = some r → ancestor g k x = some r ∧ r < h.next := by
    intro k
    induction k with
    | zero => intro x hx r e; simp only [ancestor, Option.some.injEq] at e; subst e; exact ⟨rfl, hx⟩
    | succ k ih =>
      intro x hx r e
      simp only [ancestor] at e ⊢
      rw [A.par x hx]
      cases hp : h.par x with
      | none => simp [hp] at e
      | some q =>
        rw [hp] at e
        exact ih q (C.wf.lt_of_kids (by have := Z x q hp; intro h0; rw [h0] at this; simp at this)) r e
  obtain ⟨a, b⟩ := up k x hx r e1
  have er : h.root x = r := rootAux_eq k _ x r e1 e2 e3
  rw [er]
  exact ⟨rootAux_eq k _ x r a (by rw [A.par r b]; exact e2) (Nat.le_trans e3 A.next), b⟩

theorem leads_one (W : WF h) (A : LoadsOnly X h g) {r x : Id} {t : Tag} (hr : r < h.next) (hn : ¬ X r) (L : LeadsTo h r [t] x) : LeadsTo g r [t] x := by
  have ek := A.kids r hr hn
  cases L with
  | idx a b => cases b; exact .idx (by rw [ek]; exact a) (.here _)
  | @key _ _ _ f _ _ a b =>
    cases b
    refine .key ?_ (.here _)
    have : ((g.kids r).filter fun c => g.tag c = f) = (h.kids r).filter fun c => h.tag c = f := by
      rw [ek]
      refine List.filter_congr fun c hc => ?_
      rw [A.tag c (W.kids_lt r c hc)]
    rw [this]; exact a

theorem LeadsVia.to {r s : Id} {ts : List Tag} (V : LeadsVia h r ts s) : LeadsTo h r ts s := by
  induction V with
  | here r => exact .here r
  | step _ _ st _ ih => exact leads_cons.2 ⟨_, st, ih⟩

theorem LeadsVia.later (W : WF h) (A : LoadsOnly X h g) (hX : ∀ i, X i → h.isLinkRoot i = true) {r s : Id} {ts : List Tag} (V : LeadsVia h r ts s) : LeadsVia g r ts s := by
  induction V with
  | here r => exact .here r
  | @step r x s t ts hlt hr st _ ih =>
    exact .step (Nat.lt_of_lt_of_le hlt A.next) (by rw [A.isRoot hlt]; exact hr) (leads_one W A hlt (fun c => by have := hX r c; rw [hr] at this; cases this) st) ih

theorem LeadsVia.lt (W : WF h) {r s : Id} {ts : List Tag} (V : LeadsVia h r ts s) (hr : r < h.next) : s < h.next := V.to.lt W hr

theorem Nested.dom {force : Bool} {m : Nat} {p : Id} {D : Id → Prop} (N : Nested h force m p D) : ∀ i, D i → i < h.next ∧ h.isLinkRoot i = true := by
  induction N with
  | mk Ds a b _ _ _ _ _ _ _ _ _ _ hD ih =>
    intro i hi
    rcases (hD i).1 hi with rfl | ⟨c, hc, hr, hd⟩
    · exact ⟨a, b⟩
    · exact ih c hc hr i hd

theorem Nested.self {force : Bool} {m : Nat} {p : Id} {D : Id → Prop} (N : Nested h force m p D) : D p := by
  cases N with
  | mk Ds _ _ _ _ _ _ _ _ _ _ _ _ hD => exact (hD p).2 (.inl rfl)

theorem Nested.root {force : Bool} {m : Nat} {p : Id} {D : Id → Prop} (N : Nested h force m p D) : p < h.next ∧ h.isLinkRoot p = true := N.dom p N.self

theorem Nested.later {force : Bool} (C : Core h) (Z : NoZombie h) (A : LoadsOnly X h g) (hX : ∀ i, X i → h.isLinkRoot i = true) {m : Nat} {p : Id} {D : Id → Prop} (N : Nested h force m p D) :
    (∀ i, D i → ¬ X i) → Nested g force m p D := by
  induction N with
  | @mk m p s lk D Ds a b c d e f v w l n1 n2 n3 hD ih =>
    intro dis
    obtain ⟨r1, r2⟩ := A.root C Z a
    have hp := dis p ((hD p).2 (.inl rfl))
    have hs : s < h.next := v.lt C.wf r2
    have nX : ¬ X s := fun x => by have := hX s x; rw [w] at this; cases this
    have ek := A.kids s hs nX
    have kl : ∀ c ∈ h.kids s, c < h.next := fun c hc => C.wf.kids_lt s c hc
    refine Nested.mk (s := s) (lk := lk) Ds (Nat.lt_of_lt_of_le a A.next) (by rw [A.isRoot a]; exact b) (by rw [A.kids p a hp]; exact c) (by rw [A.link p a hp]; exact d) e f
      (by rw [r1, A.tag _ r2]; exact v.later C.wf A hX) (by rw [A.isRoot hs]; exact w) ?_ ?_ ?_ ?_ ?_
    · intro c hc; rw [ek] at hc; rw [A.flags c (kl c hc)]; exact l c hc
    · intro c hc hr; rw [ek] at hc; rw [A.isRoot (kl c hc)] at hr
      exact ih c hc hr fun i hi => dis i ((hD i).2 (.inr ⟨c, hc, hr, hi⟩))
    · intro c hc hr; rw [ek] at hc; rw [A.isRoot (kl c hc)] at hr; exact n2 c hc hr
    · intro c hc c' hc' hr hr'; rw [ek] at hc hc'; rw [A.isRoot (kl c hc)] at hr; rw [A.isRoot (kl c' hc')] at hr'; exact n3 c hc c' hc' hr hr'
    · intro i; rw [hD i, ek]
      constructor
      · rintro (x | ⟨c, hc, hr, hd⟩)
        · exact .inl x
        · exact .inr ⟨c, hc, by rw [A.isRoot (kl c hc)]; exact hr, hd⟩
      · rintro (x | ⟨c, hc, hr, hd⟩)
        · exact .inl x
        · exact .inr ⟨c, hc, by rw [← A.isRoot (kl c hc)]; exact hr, hd⟩

/-- the target of a nested link is the same later -/
theorem Nested.source {force : Bool} (C : Core h) (Z : NoZombie h) (A : LoadsOnly X h g) (hX : ∀ i, X i → h.isLinkRoot i = true) {m : Nat} {p s : Id} {D : Id → Prop} (N : Nested h force m p D) (dis : ∀ i, D i → ¬ X i)
    (S : Source g p s) : Source h p s ∧ s < h.next ∧ h.isLinkRoot s = false ∧ ∀ c ∈ h.kids s, h.isLinkRoot c = true → ∃ m' D', Nested h force m' c D' ∧ ∀ i, D' i → D i := by
  cases N with
  | @mk m _ s0 lk _ Ds a b c d e f v w l n1 n2 n3 hD =>
    obtain ⟨r1, r2⟩ := A.root C Z a
    have hp := dis p ((hD p).2 (.inl rfl))
    obtain ⟨lk', e1, e2⟩ := S
    rw [A.link p a hp, d, Option.some.injEq] at e1
    subst e1
    rw [r1, A.tag _ r2] at e2
    obtain rfl : s0 = s := (v.later C.wf A hX).to.unique e2
    exact ⟨⟨lk, d, v.to⟩, v.lt C.wf r2, w, fun c hc hr => ⟨m, Ds c, n1 c hc hr, fun i hi => (hD i).2 (.inr ⟨c, hc, hr, hi⟩)⟩⟩

/-- what shows an item later shows what it was before -/
theorem ShowsItem.back {force : Bool} (C : Core h) (Z : NoZombie h) (Cg : Core g) (A : LoadsOnly X h g) (hX : ∀ i, X i → h.isLinkRoot i = true) {c : Id} {T : Tree} (S : ShowsItem g c T) : c < h.next →
    (h.isLinkRoot c = true → ∃ m D, Nested h force m c D ∧ ∀ i, D i → ¬ X i) → ShowsItem h c T := by
  induction S with
  | @item c T a b d e f =>
    intro hc _
    rw [A.isRoot hc] at a
    refine .item a (b.trans (A.tag c hc)) (d.trans (A.value c hc)) e fun hn => ?_
    have R := tree_rep C.wf C.forest c
    have bel : ∀ i, i ∈ (h.tree c).ids ↔ Below h c i := fun i => by have := below_iff_ids R i; rw [tree_id] at this; exact this.symm
    have R' : Rep g (h.tree c) := R.congr fun i hi => by
      have hb := (bel i).1 hi
      have hl := hb.lt_next C.wf hc
      have nX : ¬ X i := fun x => by have := hX i x; rw [hn i hb] at this; cases this
      exact ⟨A.tag i hl, A.value i hl, A.flags i hl, A.link i hl nX, A.kids i hl nX⟩
    have et : g.tree c = h.tree c := by have := R'.tree Cg.wf; rwa [tree_id] at this
    rw [← et]
    refine f fun z hz => ?_
    have := below_iff_ids R' z
    rw [tree_id] at this
    have hb := (bel z).1 (this.1 hz)
    rw [A.isRoot (hb.lt_next C.wf hc)]
    exact hn z hb
  | @link c s T a b d e f l k ih =>
    intro hc hN
    rw [A.isRoot hc] at a
    obtain ⟨m, D, N, dis⟩ := hN a
    obtain ⟨q1, q2, q3, q4⟩ := N.source C Z A hX dis f
    have ek := A.kids s q2 fun x => by have := hX s x; rw [q3] at this; cases this
    rw [ek] at l ih
    refine .link a (b.trans (A.tag c hc)) (d.trans (A.value c hc)) e q1 l fun i x y hx hy => ?_
    have hm := List.mem_of_getElem? hx
    refine ih i x y hx hy (C.wf.kids_lt s x hm) fun hr => ?_
    obtain ⟨m', D', N', sub⟩ := q4 x hm hr
    exact ⟨m', D', N', fun i hi => dis i (sub i hi)⟩

/-- a copy shows the same -/
theorem ShowsItem.copy {c : Id} {T : Tree} (S : ShowsItem h c T) : ∀ {U : Tree}, U.shape = T.copyShape → ShowsItem h c U := by
  have parts : ∀ {T U : Tree}, U.shape = T.copyShape → U.tag = T.tag ∧ U.value = T.value ∧ U.flags = T.flags ∧ U.kids.map Tree.shape = T.kids.map Tree.copyShape := by
    intro T U e
    obtain ⟨i, t, v, f, l, ks⟩ := T
    obtain ⟨i', t', v', f', l', ks'⟩ := U
    simp only [Tree.shape, Tree.copyShape, Shape.node.injEq, shapeL_eq, copyShapeL_eq] at e
    exact ⟨e.1, e.2.1, e.2.2.1, e.2.2.2.2⟩
  induction S with
  | @item c T a b d e f =>
    intro U hU
    obtain ⟨u1, u2, u3, u4⟩ := parts hU
    exact .item a (u1.trans b) (u2.trans d) (by rw [u3]; exact e) fun hn => (shape_facts hU).trans (f hn)
  | @link c s T a b d e f l k ih =>
    intro U hU
    obtain ⟨u1, u2, u3, u4⟩ := parts hU
    have len : U.kids.length = T.kids.length := by have := congrArg List.length u4; simpa using this
    refine .link a (u1.trans b) (u2.trans d) (by rw [u3]; exact e) f (len.trans l) fun i x y hx hy => ?_
    have hi : i < T.kids.length := by rw [← len]; exact (List.getElem?_eq_some_iff.1 hy).1
    have e2 := congrArg (fun l => l[i]?) u4
    simp only [List.getElem?_map, hy, List.getElem?_eq_getElem hi, Option.map_some, Option.some.injEq] at e2
    exact ih i x T.kids[i] hx (List.getElem?_eq_getElem hi) e2

end
end ITree
