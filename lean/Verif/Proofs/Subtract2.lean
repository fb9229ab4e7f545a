import Verif.Proofs.Subtract
import Verif.Proofs.Fresh
import Verif.Spec.Subtract
/-
Subtraction when all children of the subtrahend are found.
-/
namespace ITree

/-! ### lists -/

theorem withoutFrom_lt {α} {p : Nat} {ps : List Nat} (l : List α) : ∀ {k : Nat}, p < k → withoutFrom (p :: ps) k l = withoutFrom ps k l := by
  induction l with
  | nil => intro k _; rfl
  | cons x l ih =>
    intro k hk
    have : k ≠ p := by omega
    simp only [withoutFrom, List.mem_cons, this, false_or, ih (show p < k + 1 by omega)]

theorem withoutFrom_cons {α} {p : Nat} {ps : List Nat} (hp : ∀ q ∈ ps, p < q) (l : List α) : ∀ {k : Nat}, k ≤ p →
    withoutFrom (p :: ps) k l = (withoutFrom ps k l).eraseIdx (p - k) := by
  induction l with
  | nil => intro k _; simp [withoutFrom]
  | cons x l ih =>
    intro k hk
    have hkps : k ∉ ps := fun h => by have := hp k h; omega
    by_cases e : k = p
    · subst e
      simp only [withoutFrom, List.mem_cons, true_or, if_true, hkps, if_false, Nat.sub_self, List.eraseIdx_cons_zero]
      exact withoutFrom_lt l (by omega)
    · have e2 : p - k = (p - (k + 1)) + 1 := by omega
      simp only [withoutFrom, List.mem_cons, e, false_or, hkps, if_false, e2, List.eraseIdx_cons_succ]
      rw [ih (by omega)]

theorem withoutFrom_nil {α} (l : List α) : ∀ k, withoutFrom [] k l = l := by
  induction l with
  | nil => intro k; rfl
  | cons x l ih => intro k; simp [withoutFrom, ih]

theorem withoutFrom_map {α β} (f : α → β) (ps : List Nat) (l : List α) : ∀ k, withoutFrom ps k (l.map f) = (withoutFrom ps k l).map f := by
  induction l with
  | nil => intro k; rfl
  | cons x l ih => intro k; simp only [List.map_cons, withoutFrom, ih]; split <;> rfl

theorem withoutFrom_sub {α} (ps : List Nat) (l : List α) : ∀ k, ∀ x ∈ withoutFrom ps k l, x ∈ l := by
  induction l with
  | nil => intro k x hx; simp [withoutFrom] at hx
  | cons y l ih =>
    intro k x hx
    simp only [withoutFrom] at hx
    split at hx
    · exact List.mem_cons_of_mem _ (ih _ x hx)
    · rcases List.mem_cons.1 hx with rfl | hx
      · simp
      · exact List.mem_cons_of_mem _ (ih _ x hx)

/-- entries in front of all removed positions stay where they are -/
theorem withoutFrom_get {α} {ps : List Nat} (l : List α) : ∀ {k p : Nat}, (∀ q ∈ ps, k + p < q) → (withoutFrom ps k l)[p]? = l[p]? := by
  induction l with
  | nil => intro k p _; simp [withoutFrom]
  | cons x l ih =>
    intro k p hp
    have hk : k ∉ ps := fun h => by have := hp k h; omega
    simp only [withoutFrom, hk, if_false]
    cases p with
    | zero => simp
    | succ p => simp only [List.getElem?_cons_succ]; exact ih fun q hq => by have := hp q hq; omega

/-! ### data that neither reading nor deleting changes -/

/-- only the children of `new` may differ -/
structure SameBut (new : Id) (h h' : Heap) : Prop where
  next : h'.next = h.next
  tag : ∀ i, h'.tag i = h.tag i
  value : ∀ i, (h'.node i).value = (h.node i).value
  flags : ∀ i, h'.flags i = h.flags i
  link : ∀ i, (h'.node i).link = (h.node i).link
  kids : ∀ i, i ≠ new → h'.kids i = h.kids i

theorem SameBut.refl (new : Id) (h : Heap) : SameBut new h h := ⟨rfl, fun _ => rfl, fun _ => rfl, fun _ => rfl, fun _ => rfl, fun _ _ => rfl⟩
theorem SameBut.trans {new : Id} {a b c : Heap} (A : SameBut new a b) (B : SameBut new b c) : SameBut new a c :=
  ⟨B.next.trans A.next, fun i => (B.tag i).trans (A.tag i), fun i => (B.value i).trans (A.value i), fun i => (B.flags i).trans (A.flags i), fun i => (B.link i).trans (A.link i),
    fun i hi => (B.kids i hi).trans (A.kids i hi)⟩
theorem CEq.sameBut {h h' : Heap} (H : CEq h h') (new : Id) : SameBut new h h' := ⟨H.next, H.tag, H.value, H.flags, H.link, fun i _ => H.kids i⟩
theorem DetachRel.sameBut {h h' : Heap} {p x : Id} {n : Nat} (D : DetachRel h h' p x n) : SameBut p h h' := ⟨D.next, D.tag, D.value, D.flags, D.link, D.kids_o⟩

/-- deleting positions from the end -/
theorem subDelete_ok {new : Id} : ∀ (ps : List Nat) {h : Heap}, Core h → h.isProtected new = false → ps.Pairwise (· < ·) → (∀ q ∈ ps, q < (h.kids new).length) →
    ∃ h', subDelete h new (ps.map Int.ofNat).reverse = (h', .ok ()) ∧ Core h' ∧ SameBut new h h' ∧ h'.kids new = without ps (h.kids new) ∧ h'.par new = h.par new := by
  have app : ∀ (a b : List Int) (h : Heap), subDelete h new (a ++ b) = match (subDelete h new a).2 with | .ok () => subDelete (subDelete h new a).1 new b | .error e => ((subDelete h new a).1, .error e) := by
    intro a
    induction a with
    | nil => intro b h; rfl
    | cons i a ih =>
      intro b h
      simp only [List.cons_append, subDelete]
      cases (delItem h new (.int i)).2 with
      | error e => rfl
      | ok _ => exact ih b _
  intro ps
  induction ps with
  | nil => intro h C _ _ _; exact ⟨h, rfl, C, .refl _ _, (withoutFrom_nil _ _).symm, rfl⟩
  | cons p ps ih =>
    intro h C hpr hinc hlt
    rw [List.pairwise_cons] at hinc
    obtain ⟨h1, e1, C1, S1, k1, p1⟩ := ih C hpr hinc.2 fun q hq => hlt q (by simp [hq])
    have hp := hlt p (by simp)
    obtain ⟨x, hx⟩ : ∃ x, (h.kids new)[p]? = some x := ⟨_, List.getElem?_eq_getElem hp⟩
    have hx1 : (h1.kids new)[p]? = some x := by rw [k1, without, withoutFrom_get _ (by simpa using hinc.1)]; exact hx
    have hn1 := (List.getElem?_eq_some_iff.1 hx1).1
    have hpr1 : h1.isProtected new = false := by simp only [Heap.isProtected, S1.flags]; exact hpr
    have hpos : pyPos (h1.kids new).length (p : Int) = some p := by unfold pyPos; simp [hn1]
    obtain ⟨h2, e2⟩ := delInt_succ (k := (p : Int)) C1.wf (fun c _ => C1.nocov c) (lr := false) (by simp [guardDel, hpr1]) hpos hx1 (by simp)
    obtain ⟨m, hm, D⟩ := delInt_ok C1.wf (fun c _ => C1.nocov c) e2
    have : m = p := by rw [hpos] at hm; simpa [eq_comm] using hm
    subst this
    refine ⟨h2, ?_, (D.keeps C1).core, S1.trans D.sameBut, ?_, ?_⟩
    · rw [List.map_cons, List.reverse_cons, app, e1]
      simp only [subDelete]
      have : delItem h1 new (.int (Int.ofNat m)) = (h2, .ok [x]) := by
        show delItem h1 new (.int (m : Int)) = _
        simp [delItem, e2, Except.map]
      rw [this]
    · rw [D.kids_p, k1, without, without, withoutFrom_cons hinc.1 _ (Nat.zero_le _), Nat.sub_zero]
    · rw [D.par', ← p1]
      have hne : new ≠ x := by
        rintro rfl
        exact C1.forest.irrefl (List.mem_of_getElem? hx1) .refl
      rw [if_neg hne]

/-! ### the loop -/

theorem idx_keeps_fresh {h : Heap} (W : WF h) {p x : Id} (hx : x ∈ h.kids p) {z : Id} (F : FreshFam h z) : FreshFam (h.idx x).1 z := by
  obtain ⟨r, h1, h2, h3, h4, h5⟩ := W.kid_parent p x hx
  have H := idx_ceq h x
  obtain ⟨q, hz, F⟩ := F
  refine ⟨q, by rw [H.kids]; exact hz, ?_⟩
  rw [H.famView, H.tag]
  have e : (h.idx x).1 = (cachedPos .abs h x r (h.kids r.pid)).1 := by unfold Heap.idx; simp only [h1]
  rw [e]
  exact (cachedPos_fresh (c := .abs) h1 h4).1 .fam _ z (fun _ c => by cases c) F

theorem getItem_key {h : Heap} (W : WF h) {p c : Id} {g : Tag} {i : Int} (hc : pyGet (famView h p g) i = some c) : getItem h p (.key g (.int i)) = .ok (.one c) := by
  have hk : h.kids p ≠ [] := by
    intro e
    have := pyGet_mem hc
    simp [famView, e] at this
  obtain ⟨F, hb, hf, hO⟩ := W.bound hk
  have hne : famView h p g ≠ [] := by
    intro e
    have := pyGet_mem hc
    rw [e] at this; simp at this
  have hget := hO.get g
  rw [if_neg hne] at hget
  simp only [getItem, if_neg hk, getItem1, hb, Option.getD_some, getKey, hget, hc]

/-- child `k` of the subtrahend `p` and child number `n` of `new`: same key (same tag, same number in the family), and `==` holds -/
structure Match (O : SubOps) (h : Heap) (new p k : Id) (n : Nat) : Prop where
  fresh : FreshFam h k
  mem : k ∈ h.kids p
  at_n : ∃ (o : Id) (m : Nat), (h.kids new)[n]? = some o ∧ (famView h new (h.tag k))[m]? = some o ∧ (famView h p (h.tag k))[m]? = some k ∧ ∀ g, CEq h g → O.itemEq g o k = true

theorem subLoop_ok (O : SubOps) {new p : Id} : ∀ (ks : List Tree) (ps : List Nat) (acc : List Int) {h : Heap}, Core h → List.Forall₂ (fun (k : Tree) n => Match O h new p k.id n) ks ps →
    ∃ h', subLoop O h new ks acc = (h', .ok (acc ++ ps.map Int.ofNat)) ∧ CEq h h' := by
  intro ks
  induction ks with
  | nil =>
    intro ps acc h C hm
    cases hm
    exact ⟨h, by simp [subLoop], .refl h⟩
  | cons k ks ih =>
    intro ps acc h C hm
    cases hm with
    | @cons _ n _ ps hk hm =>
    obtain ⟨F, hmem, o, m, ho, hfo, hfk, heq⟩ := hk
    obtain ⟨q, m', hq, hm', et⟩ := tagIdx_of_fresh C.wf F
    have hpq : p = q := by
      have := par_child C.wf hq
      rw [par_child C.wf hmem] at this
      simpa using this
    subst hpq
    have hmm : m' = m := by
      have nd : (famView h p (h.tag k.id)).Nodup := (C.wf.kids_nodup p).filter _
      have l1 := (List.getElem?_eq_some_iff.1 hfk).1
      exact (nd.getElem_inj_iff (hi := (List.getElem?_eq_some_iff.1 hm').1) (hj := l1)).1 (by
        rw [(List.getElem?_eq_some_iff.1 hm').2, (List.getElem?_eq_some_iff.1 hfk).2])
    subst hmm
    have hg : getItem h new (.key (h.tag k.id) (.int (m' : Int))) = .ok (.one o) := getItem_key C.wf (by rw [pyGet_nat]; exact hfo)
    have hs : sameAt O h new k.id (.key (h.tag k.id) (.int (m' : Int))) = some o := by
      simp only [sameAt, containsTarget, hg, heq h (.refl h), if_true]
    have hon : o ∈ h.kids new := List.mem_of_getElem? ho
    obtain ⟨n', e1, e2⟩ := idx_child C.wf hon
    have hnn : n' = n := by
      have nd := C.wf.kids_nodup new
      exact (nd.getElem_inj_iff (hi := (List.getElem?_eq_some_iff.1 e2).1) (hj := (List.getElem?_eq_some_iff.1 ho).1)).1 (by
        rw [(List.getElem?_eq_some_iff.1 e2).2, (List.getElem?_eq_some_iff.1 ho).2])
    subst hnn
    have H := idx_ceq h o
    obtain ⟨h', e, H'⟩ := ih ps (acc ++ [(n' : Int)]) (C.ceq H) (hm.imp fun k n M => by
      obtain ⟨a, b, o', m, c1, c2, c3, c4⟩ := M
      refine ⟨idx_keeps_fresh C.wf hon a, by rw [H.kids]; exact b, o', m, by rw [H.kids]; exact c1, by rw [H.famView, H.tag]; exact c2, by rw [H.famView, H.tag]; exact c3, ?_⟩
      exact fun g hg => c4 g (H.trans hg))
    refine ⟨h', ?_, H.trans H'⟩
    simp only [subLoop, et, TagIdx.target, hs, e1, e]
    simp

/-! ### the copy and its new tag and value -/

theorem copyItem_node {h : Heap} {x i : Id} (hi : i < h.next) : (copyItem h x).1.node i = h.node i := by
  have hne : i ≠ h.next := by omega
  have := (buildKids_node (h.tree x).kids (h.alloc (copyNode (h.tree x))).1 h.next i (by simp only [Heap.alloc]; omega) hne).1
  rw [show (copyItem h x).1 = buildKids (h.alloc (copyNode (h.tree x))).1 h.next (h.tree x).kids from rfl, this]
  simp [Heap.alloc, hne]

/-- writing tag and value of a parentless item -/
theorem head_core {h : Heap} (C : Core h) {x : Id} (hx : (h.node x).parent = none) (g : Tag) (v : Val) :
    Core (h.modify x fun n => { n with tag := g, value := v }) := by
  obtain ⟨h', e, S⟩ := rename_free (g := g) C.wf hx
  have e' : h' = h.modify x fun n => { n with tag := g } := by
    unfold rename at e
    simp only [hx] at e
    exact (Prod.mk.inj e).1.symm
  subst e'
  have C1 := (S.keeps C).core
  have D : DataOnly (fun n : Node => { n with value := v }) := ⟨fun _ => rfl, fun _ => rfl, fun _ => rfl, fun _ => rfl, fun _ => rfl⟩
  have C2 := ((D.structEq (h.modify x fun n => { n with tag := g }) x).keeps C1 (fun i => by simp only [node_modify]; split <;> rfl)).core
  have : ((h.modify x fun n => { n with tag := g }).modify x fun n => { n with value := v }) = h.modify x fun n => { n with tag := g, value := v } := by
    simp only [Heap.modify]
    congr 1
    funext i
    split <;> rfl
  rwa [this] at C2

end ITree
