import Verif.Spec.Ready
import Verif.Proofs.Nested2
/-
Link roots that can be loaded in any order: what a load leaves as it is.
-/
namespace ITree
section
variable {h g f : Heap} {E A X Y : Id → Prop} {m k : Nat} {p : Id}

theorem CanLoad.up (R : CanLoad h X m p) : CanLoad h X (m + 1) p := by
  induction R with
  | mk a b c d e f u v w l n st ih => exact .mk a b c d e f u v w l ih st

theorem CanLoad.mono (R : CanLoad h X m p) {m' : Nat} (hm : m ≤ m') : CanLoad h X m' p := by
  induction hm with
  | refl => exact R
  | step _ ih => exact ih.up

theorem CanLoad.weaken (R : CanLoad h X m p) (sub : ∀ i, Y i → X i) : CanLoad h Y m p := by
  induction R with
  | mk a b c d e f u v w l n st ih => exact .mk (fun y => a (sub _ y)) b c d e f u v w l ih st

/-- what is nested less deep does not need `p` -/
theorem CanLoad.avoid {q : Id} (R : CanLoad h X k q) (hk : k ≤ m) (hp : ¬ CanLoad h X m p) : CanLoad h (fun i => X i ∨ i = p) k q := by
  induction R with
  | @mk k q s lk a b c d e f u v w l n st ih =>
    refine .mk ?_ b c d e f u v w l (fun c hc hr => ih c hc hr (by omega)) st
    rintro (x | rfl)
    · exact a x
    · exact hp ((CanLoad.mk a b c d e f u v w l n st).mono hk)

theorem CanLoad.lt (R : CanLoad h X m p) : p < h.next := by cases R; assumption

theorem Source.unique {s s' : Id} (S : Source h p s) (S' : Source h p s') : s = s' := by
  obtain ⟨lk, a, b⟩ := S
  obtain ⟨lk', a', b'⟩ := S'
  rw [a, Option.some.injEq] at a'
  subst a'
  exact b.unique b'

/-- only the children and links of the items `X` change, and items that are not linked stay below the same root -/
structure LoadBut (X : Id → Prop) (h g : Heap) : Prop where
  next : h.next ≤ g.next
  tag : ∀ i, i < h.next → g.tag i = h.tag i
  value : ∀ i, i < h.next → (g.node i).value = (h.node i).value
  flags : ∀ i, i < h.next → g.flags i = h.flags i
  kids : ∀ i, i < h.next → ¬ X i → g.kids i = h.kids i
  link : ∀ i, i < h.next → ¬ X i → (g.node i).link = (h.node i).link
  root : ∀ i, i < h.next → (h.flags i).has Flags.linked = false → g.root i = h.root i ∧ h.root i < h.next

theorem LoadsOnly.loadBut (O : LoadsOnly X h g) (C : Core h) (Z : NoZombie h) : LoadBut X h g :=
  ⟨O.next, O.tag, O.value, O.flags, O.kids, O.link, fun _ hi _ => O.root C Z hi⟩

theorem LoadBut.trans {h1 h2 h3 : Heap} {X Y : Id → Prop} (A : LoadBut X h1 h2) (B : LoadBut Y h2 h3) : LoadBut (fun i => X i ∨ Y i) h1 h3 where
  next := Nat.le_trans A.next B.next
  tag i hi := (B.tag i (Nat.lt_of_lt_of_le hi A.next)).trans (A.tag i hi)
  value i hi := (B.value i (Nat.lt_of_lt_of_le hi A.next)).trans (A.value i hi)
  flags i hi := (B.flags i (Nat.lt_of_lt_of_le hi A.next)).trans (A.flags i hi)
  kids i hi hn := (B.kids i (Nat.lt_of_lt_of_le hi A.next) fun c => hn (.inr c)).trans (A.kids i hi fun c => hn (.inl c))
  link i hi hn := (B.link i (Nat.lt_of_lt_of_le hi A.next) fun c => hn (.inr c)).trans (A.link i hi fun c => hn (.inl c))
  root i hi hl := ⟨(B.root i (Nat.lt_of_lt_of_le hi A.next) (by rw [A.flags i hi]; exact hl)).1.trans (A.root i hi hl).1, (A.root i hi hl).2⟩

theorem LoadBut.mono (A : LoadBut X h g) (hY : ∀ i, i < h.next → X i → Y i) : LoadBut Y h g :=
  ⟨A.next, A.tag, A.value, A.flags, fun i hi hn => A.kids i hi fun c => hn (hY i hi c), fun i hi hn => A.link i hi fun c => hn (hY i hi c), A.root⟩

theorem LoadBut.isRoot (A : LoadBut X h g) {i : Id} (hi : i < h.next) : g.isLinkRoot i = h.isLinkRoot i := by simp only [Heap.isLinkRoot, A.flags i hi]

theorem LoadBut.one (W : WF h) (A : LoadBut X h g) {r x : Id} {t : Tag} (hr : r < h.next) (hn : ¬ X r) (L : LeadsTo h r [t] x) : LeadsTo g r [t] x := by
  have ek := A.kids r hr hn
  cases L with
  | idx a b => cases b; exact .idx (by rw [ek]; exact a) (.here _)
  | @key _ _ _ f _ _ a b =>
    cases b
    refine .key ?_ (.here _)
    have : ((g.kids r).filter fun c => g.tag c = f) = (h.kids r).filter fun c => h.tag c = f := by
      rw [ek]
      refine List.filter_congr fun c hc => ?_
      rw [A.tag c (W.kids_lt r c hc)]
    rw [this]; exact a

theorem LoadBut.via (W : WF h) (A : LoadBut X h g) (hX : ∀ i, X i → h.isLinkRoot i = true) {r s : Id} {ts : List Tag} (V : LeadsVia h r ts s) : LeadsVia g r ts s := by
  induction V with
  | here r => exact .here r
  | @step r x s t ts hlt hr st _ ih =>
    exact .step (Nat.lt_of_lt_of_le hlt A.next) (by rw [A.isRoot hlt]; exact hr) (A.one W hlt (fun c => by have := hX r c; rw [hr] at this; cases this) st) ih

/-- From `h` to `g` only link roots that waited were loaded, none of `A`; the items `E` are not looked at. -/
structure Touch (E A : Id → Prop) (h g : Heap) : Prop where
  keeps : LKeeps h g
  fresh : AllFresh g
  only : LoadBut (fun i => E i ∨ (Waiting h i ∧ ¬ A i)) h g
  exempt : ∀ i, E i → h.isLinkRoot i = true ∧ (h.flags i).has Flags.linked = false
  done : ∀ i, i < h.next → ¬ E i → (g.kids i = h.kids i ∧ (g.node i).link = (h.node i).link) ∨
    ∃ lk lk' k, (h.node i).link = some lk ∧ (g.node i).link = some lk' ∧ lk'.path = dropRoot (h.tag (h.root i)) lk.path ∧ lk'.loaded = true ∧ CanLoad g A k i

theorem Touch.of' (K : LKeeps h g) (F : AllFresh g) (O : LoadBut E h g) (e : ∀ i, E i → h.isLinkRoot i = true ∧ (h.flags i).has Flags.linked = false) : Touch E A h g :=
  ⟨K, F, O.mono fun _ _ => .inl, e, fun i hi he => .inl ⟨O.kids i hi he, O.link i hi he⟩⟩

theorem Touch.of (C : Core h) (Z : NoZombie h) (K : LKeeps h g) (F : AllFresh g) (O : LoadsOnly E h g) (e : ∀ i, E i → h.isLinkRoot i = true ∧ (h.flags i).has Flags.linked = false) : Touch E A h g :=
  .of' K F (O.loadBut C Z) e

theorem Touch.hX (T : Touch E A h g) : ∀ i, (E i ∨ (Waiting h i ∧ ¬ A i)) → h.isLinkRoot i = true := by
  rintro i (e | e)
  · exact (T.exempt i e).1
  · exact e.1.1

theorem Touch.free (T : Touch E A h g) {i : Id} (hl : (h.flags i).has Flags.linked = true) : ¬ (E i ∨ (Waiting h i ∧ ¬ A i)) := by
  rintro (e | e)
  · rw [(T.exempt i e).2] at hl; cases hl
  · rw [e.1.2.1] at hl; cases hl

theorem Touch.free' (T : Touch E A h g) {i : Id} (hl : h.isLinkRoot i = false) : ¬ (E i ∨ (Waiting h i ∧ ¬ A i)) := fun e => by
  rw [T.hX i e] at hl; cases hl

/-- a link leads to the same item before and after -/
theorem Touch.src (T : Touch E A h g) (C : Core h) (Z : NoZombie h) (R : CanLoad h X m p) (sub : ∀ i, E i → X i) :
    ∃ s, Source h p s ∧ Source g p s ∧ s < h.next ∧ h.isLinkRoot s = false ∧ ∀ c ∈ h.kids s, h.isLinkRoot c = true → ∃ m, CanLoad h X m c := by
  cases R with
  | @mk m _ s lk a b c d e f u v w l n st =>
    obtain ⟨r1, r2⟩ := T.only.root _ b d
    have v' := T.only.via C.wf T.hX v
    refine ⟨s, ⟨lk, e, v.to⟩, ?_, v.lt C.wf r2, w, fun c hc hr => ⟨_, n c hc hr⟩⟩
    rcases T.done p b fun x => a (sub _ x) with ⟨_, el⟩ | ⟨lk1, lk2, k, e1, e2, e3, _, _⟩
    · refine ⟨lk, el.trans e, ?_⟩
      rw [r1, T.only.tag _ r2]; exact v'.to
    · rw [e, Option.some.injEq] at e1
      subst e1
      refine ⟨lk2, e2, ?_⟩
      rw [r1, T.only.tag _ r2, e3, u]; exact v'.to

theorem Touch.same (T : Touch E A h g) (C : Core h) {c : Id} (hc : c < h.next) (hn : ∀ z, Below h c z → h.isLinkRoot z = false) : g.tree c = h.tree c := by
  have R := tree_rep C.wf C.forest c
  have R' : Rep g (h.tree c) := R.congr fun i hi => by
    have hb : Below h c i := by have := (below_iff_ids R i).2 hi; rwa [tree_id] at this
    have hl := hb.lt_next C.wf hc
    have nX := T.free' (hn i hb)
    exact ⟨T.only.tag i hl, T.only.value i hl, T.only.flags i hl, T.only.link i hl nX, T.only.kids i hl nX⟩
  have := R'.tree T.keeps.core.wf
  rwa [tree_id] at this

theorem Touch.below (T : Touch E A h g) (C : Core h) {c z : Id} (hc : c < h.next) (hn : ∀ z, Below h c z → h.isLinkRoot z = false) (hb : Below g c z) : Below h c z := by
  induction hb with
  | refl => exact .refl
  | step _ hk ih => rw [T.only.kids _ (ih.lt_next C.wf hc) (T.free' (hn _ ih))] at hk; exact .step ih hk

theorem Touch.below' (T : Touch E A h g) (C : Core h) {c z : Id} (hc : c < h.next) (hn : ∀ z, Below g c z → g.isLinkRoot z = false) (hb : Below h c z) : Below g c z := by
  induction hb with
  | refl => exact .refl
  | @step q d hb hk ih =>
    have hl := hb.lt_next C.wf hc
    have hr := hn _ ih
    rw [T.only.isRoot hl] at hr
    exact .step ih (by rw [T.only.kids _ hl (T.free' hr)]; exact hk)

theorem Touch.shows (T : Touch E A h g) (C : Core h) (Z : NoZombie h) (sub : ∀ i, E i → X i) {c : Id} {U : Tree} (S : ShowsItem h c U) : c < h.next → (h.isLinkRoot c = true → ∃ m, CanLoad h X m c) → ShowsItem g c U := by
  induction S with
  | @item c U a b d e f =>
    intro hc _
    refine .item (by rw [T.only.isRoot hc]; exact a) (by rw [T.only.tag c hc]; exact b) (by rw [T.only.value c hc]; exact d) e fun hn => ?_
    have hn' : ∀ z, Below h c z → h.isLinkRoot z = false := fun z hz => by
      have := hn z (T.below' C hc hn hz)
      rwa [T.only.isRoot (hz.lt_next C.wf hc)] at this
    rw [T.same C hc hn']; exact f hn'
  | @link c s U a b d e f l k ih =>
    intro hc hR
    obtain ⟨m, R⟩ := hR a
    obtain ⟨s', q1, q2, q3, q4, q5⟩ := T.src C Z R sub
    obtain rfl := q1.unique f
    have ek := T.only.kids _ q3 (T.free' q4)
    refine .link (by rw [T.only.isRoot hc]; exact a) (by rw [T.only.tag c hc]; exact b) (by rw [T.only.value c hc]; exact d) e q2 (by rw [ek]; exact l) fun i x y hx hy => ?_
    rw [ek] at hx
    have hm := List.mem_of_getElem? hx
    exact ih i x y hx hy (C.wf.kids_lt _ x hm) fun hr => q5 x hm hr

theorem Touch.back (T : Touch E A h g) (C : Core h) (Z : NoZombie h) (sub : ∀ i, E i → X i) {c : Id} {U : Tree} (S : ShowsItem g c U) : c < h.next → (h.isLinkRoot c = true → ∃ m, CanLoad h X m c) → ShowsItem h c U := by
  induction S with
  | @item c U a b d e f =>
    intro hc _
    rw [T.only.isRoot hc] at a
    refine .item a (b.trans (T.only.tag c hc)) (d.trans (T.only.value c hc)) e fun hn => ?_
    rw [← T.same C hc hn]
    refine f fun z hz => ?_
    have := T.below C hc hn hz
    rw [T.only.isRoot (this.lt_next C.wf hc)]
    exact hn z this
  | @link c s U a b d e f l k ih =>
    intro hc hR
    rw [T.only.isRoot hc] at a
    obtain ⟨m, R⟩ := hR a
    obtain ⟨s', q1, q2, q3, q4, q5⟩ := T.src C Z R sub
    obtain rfl := q2.unique f
    have ek := T.only.kids _ q3 (T.free' q4)
    rw [ek] at l ih
    refine .link a (b.trans (T.only.tag c hc)) (d.trans (T.only.value c hc)) e q1 l fun i x y hx hy => ?_
    have hm := List.mem_of_getElem? hx
    exact ih i x y hx hy (C.wf.kids_lt _ x hm) fun hr => q5 x hm hr

/-- link roots that are ready stay so -/
theorem Touch.ready (T : Touch E A h g) (C : Core h) (Z : NoZombie h) (sub : ∀ i, E i → X i) {q : Id} (R : CanLoad h X k q) : CanLoad g X k q := by
  induction R with
  | @mk k p s lk a b c d e f u v w l n st ih =>
    obtain ⟨r1, r2⟩ := T.only.root _ b d
    have v' := T.only.via C.wf T.hX v
    have hs := v.lt C.wf r2
    have ek := T.only.kids s hs (T.free' w)
    have et : g.tag (g.root p) = h.tag (h.root p) := by rw [r1, T.only.tag _ r2]
    have kl : ∀ c ∈ h.kids s, c < h.next := fun c hc => C.wf.kids_lt s c hc
    have l' : ∀ c ∈ g.kids s, (g.flags c).has Flags.linked = false := fun c hc => by rw [ek] at hc; rw [T.only.flags c (kl c hc)]; exact l c hc
    have n' : ∀ c ∈ g.kids s, g.isLinkRoot c = true → CanLoad g X k c := fun c hc hr => by rw [ek] at hc; rw [T.only.isRoot (kl c hc)] at hr; exact ih c hc hr
    rcases T.done p b fun x => a (sub _ x) with ⟨e1, el⟩ | ⟨lk1, lk2, k', e1, e2, e3, e4, R'⟩
    · refine .mk a (Nat.lt_of_lt_of_le b T.only.next) (by rw [T.only.isRoot b]; exact c) (by rw [T.only.flags p b]; exact d) (el.trans e) f (by rw [et]; exact u) (by rw [et, r1]; exact v')
        (by rw [T.only.isRoot hs]; exact w) l' n' ?_
      rcases st with ⟨x, y⟩ | ⟨x, y, z, Ts, t1, t2, t3⟩
      · exact .inl ⟨x, e1.trans y⟩
      · refine .inr ⟨x, by rw [et]; exact y, by rw [z, numbered_congr C.wf ek T.only.tag], Ts, e1.trans t1, fun U hU => ?_, by rw [ek]; exact t3.1, fun i c U hc hU => ?_⟩
        · obtain ⟨u1, u2⟩ := t2 U hU
          have lt := u1.ids_lt C.wf (C.wf.kids_lt p U.id (by rw [t1]; exact List.mem_map.2 ⟨U, hU, rfl⟩))
          refine ⟨u1.congr fun i hi => ?_, fun i hi => by rw [T.only.flags i (lt i hi)]; exact u2 i hi⟩
          have nX := T.free (u2 i hi)
          exact ⟨T.only.tag i (lt i hi), T.only.value i (lt i hi), T.only.flags i (lt i hi), T.only.link i (lt i hi) nX, T.only.kids i (lt i hi) nX⟩
        · rw [ek] at hc
          have hm := List.mem_of_getElem? hc
          exact T.shows C Z sub (t3.2 i c U hc hU) (kl c hm) fun hr => ⟨_, n c hm hr⟩
    · rw [e, Option.some.injEq] at e1
      subst e1
      cases R' with
      | @mk _ _ s' lk' a2 b2 c2 d2 f2 g2 u2 v2 w2 l2 n2 st2 =>
        rw [e2, Option.some.injEq] at f2
        subst f2
        have hv : LeadsVia g (g.root p) (dropRoot (g.tag (g.root p)) lk2.path) s := by rw [et, r1, e3, u]; exact v'
        obtain rfl := v2.to.unique hv.to
        exact .mk a b2 c2 d2 e2 g2 u2 v2 w2 l' n' st2

theorem Touch.refl (C : Core h) (Z : NoZombie h) (F : AllFresh h) : Touch (fun _ => False) A h h := .of C Z (.refl C) F (.refl _ _) (fun _ => False.elim)

theorem Touch.trans (T1 : Touch E A h g) (T2 : Touch E A g f) (C : Core h) (Z : NoZombie h) (sub : ∀ i, E i → A i) : Touch E A h f := by
  refine ⟨T1.keeps.trans T2.keeps, T2.fresh, (T1.only.trans T2.only).mono ?_, T1.exempt, fun i hi he => ?_⟩
  · rintro i hi (x | x | ⟨⟨w1, w2, w3, w4⟩, x⟩)
    · exact x
    · exact .inl x
    · by_cases hh : E i ∨ (Waiting h i ∧ ¬ A i)
      · exact hh
      · rw [T1.only.isRoot hi] at w1
        rw [T1.only.flags i hi] at w2
        rw [T1.only.kids i hi hh] at w3
        rw [T1.only.link i hi hh] at w4
        exact .inr ⟨⟨w1, w2, w3, w4⟩, x⟩
  · rcases T1.done i hi he with ⟨a, b⟩ | ⟨lk, lk', k, a, b, c, d, R⟩
    · rcases T2.done i (Nat.lt_of_lt_of_le hi T1.only.next) he with ⟨a', b'⟩ | ⟨lk, lk', k, a', b', c', d', R⟩
      · exact .inl ⟨a'.trans a, b'.trans b⟩
      · have hl : (h.flags i).has Flags.linked = false := by
          have : (f.flags i).has Flags.linked = false := by cases R; assumption
          rwa [T2.only.flags i (Nat.lt_of_lt_of_le hi T1.only.next), T1.only.flags i hi] at this
        obtain ⟨r1, r2⟩ := T1.only.root i hi hl
        rw [r1, T1.only.tag _ r2] at c'
        exact .inr ⟨lk, lk', k, by rw [← b]; exact a', b', c', d', R⟩
    · refine .inr ⟨lk, lk', k, a, ?_, c, d, T2.ready T1.keeps.core (T1.keeps.nz Z) sub R⟩
      rw [T2.only.link i (Nat.lt_of_lt_of_le hi T1.only.next) ?_]
      · exact b
      · rintro (x | ⟨⟨_, _, _, lk2, x, y⟩, _⟩)
        · exact he x
        · rw [b, Option.some.injEq] at x; subst x; rw [d] at y; cases y

/-- more may change -/
theorem Touch.wider (T : Touch (fun _ => False) A h g) (e : ∀ i, E i → h.isLinkRoot i = true ∧ (h.flags i).has Flags.linked = false) : Touch E A h g :=
  ⟨T.keeps, T.fresh, T.only.mono fun _ _ => fun x => .inr (x.resolve_left id), e, fun i hi _ => T.done i hi id⟩

/-! ### appending a new linked tree -/

theorem root_same (C : Core h) (Z : NoZombie h) {i : Id} (hi : i < h.next) (hn : h.next ≤ g.next) (H : ∀ k a, ancestor h k i = some a → g.par a = h.par a) : g.root i = h.root i ∧ h.root i < h.next := by
  obtain ⟨k, r, e1, e2, e3⟩ := climb C Z i
  have up : ∀ k x, x < h.next → (∀ k a, ancestor h k x = some a → g.par a = h.par a) → ∀ r, ancestor h k x = some r → ancestor g k x = some r ∧ r < h.next := by
    intro k
    induction k with
    | zero => intro x hx _ r e; simp only [ancestor, Option.some.injEq] at e; subst e; exact ⟨rfl, hx⟩
    | succ k ih =>
      intro x hx H r e
      have hx0 := H 0 x rfl
      simp only [ancestor] at e ⊢
      rw [hx0]
      cases hp : h.par x with
      | none => simp [hp] at e
      | some q =>
        rw [hp] at e
        exact ih q (C.wf.lt_of_kids (by have := Z x q hp; intro h0; rw [h0] at this; simp at this)) (fun k a ha => H (k + 1) a (by simp only [ancestor, hp]; exact ha)) r e
  obtain ⟨a, b⟩ := up k i hi H r e1
  have er : h.root i = r := rootAux_eq k _ i r e1 e2 e3
  rw [er]
  exact ⟨rootAux_eq k _ i r a (by rw [H k r e1]; exact e2) (Nat.le_trans e3 hn), b⟩

theorem ancestor_below (Z : NoZombie h) : ∀ (k : Nat) (i a : Id), ancestor h k i = some a → Below h a i := by
  intro k
  induction k with
  | zero => intro i a e; simp only [ancestor, Option.some.injEq] at e; subst e; exact .refl
  | succ k ih =>
    intro i a e
    simp only [ancestor] at e
    cases hp : h.par i with
    | none => simp [hp] at e
    | some q => rw [hp] at e; exact .step (ih q a e) (Z i q hp)

theorem touch_append (C : Core h) (Z : NoZombie h) {x : Id} {T : Tree} (K : LKeeps h (appendItem h p x)) (F : AllFresh (appendItem h p x)) (hp : h.isLinkRoot p = true ∧ (h.flags p).has Flags.linked = false)
    (At : AttachRel h (appendItem h p x) p x (h.kids p).length) (e : T.id = x) (R : Rep h T) (hl : ∀ i ∈ T.ids, (h.flags i).has Flags.linked = true) : Touch (fun i => i = p) A h (appendItem h p x) := by
  refine .of' K F ⟨Nat.le_of_eq At.next.symm, fun i _ => At.tag i, fun i _ => At.value i, fun i _ => At.flags i, fun i _ hn => At.kids_o i hn, fun i _ _ => At.link i, fun i hi hli => ?_⟩ (fun i e => e ▸ hp)
  refine root_same C Z hi (Nat.le_of_eq At.next.symm) fun k a ha => ?_
  refine (At.par_o a ?_).par
  rintro rfl
  have hb := ancestor_below Z k i a ha
  rw [← e] at hb
  have := hl i ((below_iff_ids R i).1 hb)
  rw [hli] at this; cases this
end
end ITree
