import Verif.Model.LinksHeap
import Verif.Proofs.Links
import Verif.Proofs.Extend
import Verif.Proofs.Near
/-
Replacing a child in place by another item of the same tag (`make_local`, and deleting a local item that covers a linked one).
-/
namespace ITree

/-! ### lists -/

/-- `y` for `x` -/
def swp (x y z : Id) : Id := if z = x then y else z

theorem set_eq_swp {x y : Id} : ∀ {l : List Id} {n : Nat}, l.Nodup → l[n]? = some x → l.set n y = l.map (swp x y)
  | [], n, _, h => by simp at h
  | a :: l, 0, hd, h => by
    simp only [List.getElem?_cons_zero, Option.some.injEq] at h
    subst h
    have : l.map (swp a y) = l := by
      conv_rhs => rw [← List.map_id l]
      refine List.map_congr_left fun z hz => ?_
      simp only [swp, id]
      rw [if_neg]; rintro rfl; exact (List.nodup_cons.1 hd).1 hz
    simp [swp, this]
  | a :: l, n + 1, hd, h => by
    simp only [List.getElem?_cons_succ] at h
    have := set_eq_swp (y := y) (List.nodup_cons.1 hd).2 h
    have ha : a ≠ x := by rintro rfl; exact (List.nodup_cons.1 hd).1 (List.mem_of_getElem? h)
    simp [swp, ha] at this ⊢
    exact this

theorem filter_swp {x y : Id} {q : Id → Bool} (hq : q y = q x) (l : List Id) : (l.map (swp x y)).filter q = (l.filter q).map (swp x y) := by
  induction l with
  | nil => rfl
  | cons a l ih =>
    simp only [List.map_cons, List.filter_cons]
    have : q (swp x y a) = q a := by unfold swp; split <;> simp_all
    rw [this, ih]
    split <;> rfl

theorem mem_swp {x y z : Id} {l : List Id} (hx : x ∈ l) : z ∈ l.map (swp x y) ↔ z = y ∨ (z ∈ l ∧ z ≠ x) := by
  constructor
  · intro h
    obtain ⟨a, ha, rfl⟩ := List.mem_map.1 h
    unfold swp
    by_cases e : a = x
    · left; simp [e]
    · right; simp [e, ha]
  · rintro (rfl | ⟨h1, h2⟩)
    · exact List.mem_map.2 ⟨x, hx, by simp [swp]⟩
    · exact List.mem_map.2 ⟨z, h1, by simp [swp, h2]⟩

theorem nodup_swp {x y : Id} {l : List Id} (h : l.Nodup) (hy : y ∉ l) : (l.map (swp x y)).Nodup := by
  refine (List.nodup_map_iff_inj_on h).2 ?_
  intro a ha b hb e
  simp only [swp] at e
  split at e <;> split at e <;> simp_all

theorem swp_nil {x y : Id} {l : List Id} : l.map (swp x y) = [] ↔ l = [] := by simp

theorem famOK_swp {tagOf : Id → Tag} {x y : Id} {F : Fams} {L : List Id} (hx : x ∈ L) (ht : tagOf y = tagOf x) (hkeys : (F.map Prod.fst).Nodup)
    (hget : ∀ t, F.get? t = if L.filter (fun c => tagOf c = t) = [] then none else some (L.filter fun c => tagOf c = t)) :
    ((F.set (tagOf x) ((L.filter fun c => tagOf c = tagOf x).map (swp x y))).map Prod.fst).Nodup ∧
    ∀ t, (F.set (tagOf x) ((L.filter fun c => tagOf c = tagOf x).map (swp x y))).get? t =
      if (L.map (swp x y)).filter (fun c => tagOf c = t) = [] then none else some ((L.map (swp x y)).filter fun c => tagOf c = t) := by
  refine ⟨Fams.keys_set _ _ _ hkeys, fun t => ?_⟩
  rw [Fams.get?_set, filter_swp (by simp [ht])]
  by_cases e : t = tagOf x
  · subst e
    rw [if_pos rfl, if_neg]
    intro h
    have hm : x ∈ L.filter (fun c => tagOf c = tagOf x) := List.mem_filter.2 ⟨hx, by simp⟩
    rw [List.map_eq_nil_iff] at h
    rw [h] at hm; simp at hm
  · rw [if_neg e, hget t]
    have : (L.filter fun c => tagOf c = t).map (swp x y) = L.filter fun c => tagOf c = t := by
      conv_rhs => rw [← List.map_id (L.filter fun c => tagOf c = t)]
      refine List.map_congr_left fun z hz => ?_
      simp only [swp, id]
      rw [if_neg]; rintro rfl
      have := (List.mem_filter.1 hz).2
      simp at this; exact e this.symm
    rw [this]

/-! ### the relation -/

/-- among the children of `p`, `y` stands where `x` stood -/
structure SwapRel (h h' : Heap) (p x y : Id) : Prop where
  next : h'.next = h.next
  tag : ∀ i, h'.tag i = h.tag i
  value : ∀ i, (h'.node i).value = (h.node i).value
  flags : ∀ i, h'.flags i = h.flags i
  link : ∀ i, (h'.node i).link = (h.node i).link
  kids_p : h'.kids p = (h.kids p).map (swp x y)
  kids_o : ∀ i, i ≠ p → h'.kids i = h.kids i
  par_y : ∃ a b, 0 ≤ a ∧ 0 ≤ b ∧ (h'.node y).parent = some ⟨p, a, b, false⟩
  par_o : ∀ i, i ≠ x → i ≠ y → PEq (h.node i).parent (h'.node i).parent
  stale_p : (h'.node p).stale = none
  stale_o : ∀ i, i ≠ p → (h'.node i).stale = (h.node i).stale
  fams_p : ∃ F, (h'.node p).fams = some F ∧ (F.map Prod.fst).Nodup ∧
    ∀ t, F.get? t = if famView h' p t = [] then none else some (famView h' p t)
  fams_o : ∀ i, i ≠ p → (h'.node i).fams = (h.node i).fams

theorem SwapRel.wf {h h' : Heap} {p x y : Id} (A : SwapRel h h' p x y) (W : WF h) (hx : x ∈ h.kids p) (hy : y < h.next) (hn : ∀ q, y ∉ h.kids q) : WF h' := by
  have hxl := W.kids_lt p x hx
  refine W.update p (by rw [A.next]) ?_ A.kids_o (fun i e _ => A.fams_o i e) ?_ (fun i e _ => A.stale_o i e) (fun i _ c _ => A.tag c) ?_ ?_
  · intro z hz
    rw [A.next] at hz
    obtain ⟨h1, h2⟩ := W.fresh z hz
    have hp := W.lt_of_kids (p := p) (by intro e; rw [e] at hx; simp at hx)
    refine ⟨by rw [A.kids_o z (by omega)]; exact h1, ?_⟩
    have := A.par_o z (by omega) (by omega)
    rw [h2] at this
    cases h3 : (h'.node z).parent with
    | none => rfl
    | some r => rw [h3] at this; exact this.elim
  · intro i F e h1 h2; rw [A.fams_o i e] at h2; exact W.fams_nil i F h1 h2
  · intro i e c hc
    refine A.par_o c ?_ (fun e' => hn i (e' ▸ hc))
    rintro rfl
    exact e (W.parent_unique hc hx)
  · constructor
    · intro c hc
      rw [A.kids_p, mem_swp hx] at hc
      rw [A.next]
      rcases hc with rfl | hc
      · exact hy
      · exact W.kids_lt p c hc.1
    · rw [A.kids_p]; exact nodup_swp (W.kids_nodup p) (hn p)
    · intro c hc
      rw [A.kids_p, mem_swp hx] at hc
      rcases hc with rfl | ⟨hc, hcx⟩
      · obtain ⟨a, b, ha, hb, hr⟩ := A.par_y
        exact ⟨_, hr, rfl, rfl, ha, hb⟩
      · obtain ⟨r, h1, h2, h3, h4, h5⟩ := W.kid_parent p c hc
        have := A.par_o c hcx (fun e' => hn p (e' ▸ hc))
        rw [h1] at this
        cases h6 : (h'.node c).parent with
        | none => rw [h6] at this; exact this.elim
        | some r' =>
          rw [h6] at this
          exact ⟨r', rfl, this.1.trans h2, this.2.1.trans h3, this.2.2.1 h4, this.2.2.2 h5⟩
    · intro _; exact A.stale_p
    · intro _; obtain ⟨F, h1, h2, h3⟩ := A.fams_p; exact ⟨F, h1, h2, h3⟩
    · intro F hnil _
      exfalso
      rw [A.kids_p, swp_nil] at hnil
      rw [hnil] at hx; simp at hx

theorem SwapRel.forest {h h' : Heap} {p x y : Id} (A : SwapRel h h' p x y) (F : Forest h) (hx : x ∈ h.kids p) (hb : ¬ Below h y p) : Forest h' := by
  refine F.addEdge hb fun q c hc => ?_
  by_cases e : q = p
  · subst e
    rw [A.kids_p, mem_swp hx] at hc
    rcases hc with rfl | hc
    · right; exact ⟨rfl, rfl⟩
    · left; exact hc.1
  · left; rwa [A.kids_o q e] at hc

/-- what is left alone -/
theorem SwapRel.frame {h h' : Heap} {p x y : Id} (A : SwapRel h h' p x y) : Frame h h' (· = p) (fun i => i = x ∨ i = y) where
  next := by rw [A.next]
  tag i _ := A.tag i
  value i _ := A.value i
  flags i _ := A.flags i
  link i _ := A.link i
  kids i _ e := A.kids_o i e
  par i _ e := by
    have := (A.par_o i (fun e' => e (Or.inl e')) (fun e' => e (Or.inr e'))).par
    exact this

/-- `putLocal` with the true positions -/
theorem putLocal_swap {h : Heap} (W : WF h) {p x y : Id} {n m : Nat} (hn : (h.kids p)[n]? = some x) (hm : (famView h p (h.tag x))[m]? = some x) (ht : h.tag y = h.tag x) :
    (putLocal h p y n (h.tag x) m).2 = .ok y ∧ SwapRel h (putLocal h p y n (h.tag x) m).1 p x y ∧ ((putLocal h p y n (h.tag x) m).1.node y).parent = some ⟨p, n, m, false⟩ ∧
    ∀ i, i ≠ y → ((putLocal h p y n (h.tag x) m).1.node i).parent = (h.node i).parent := by
  have hx : x ∈ h.kids p := List.mem_of_getElem? hn
  have hne : h.kids p ≠ [] := by intro e; rw [e] at hx; simp at hx
  obtain ⟨F, hb, hf, hO⟩ := W.bound hne
  have hst := W.stale_none p hne
  have hg := hO.get_of_mem hx
  have hb' : (h.setItems p ((h.kids p).map (swp x y))).boundFams p = some F := by
    simpa [Heap.boundFams, Heap.setItems, Heap.modify] using hb
  have hk : pySet (h.kids p) n y = (h.kids p).map (swp x y) := by
    rw [pySet_nat (List.getElem?_eq_some_iff.1 hn).1, set_eq_swp (W.kids_nodup p) hn]
  have hfm : pySet (famView h p (h.tag x)) m y = (famView h p (h.tag x)).map (swp x y) := by
    rw [pySet_nat (List.getElem?_eq_some_iff.1 hm).1, set_eq_swp (l := famView h p (h.tag x)) ((W.kids_nodup p).filter _) hm]
  have hO' := famOK_swp (tagOf := h.tag) (y := y) (L := h.kids p) hx ht hO.keys hO.get
  unfold putLocal
  simp only [hk, hb', Option.getD_some, hg, hfm]
  refine ⟨trivial, ?_, by simp [Heap.setParent, Heap.modify], ?_⟩
  · constructor
    · rfl
    · intro i; simp only [Heap.tag, Heap.setParent, Heap.setFams, Heap.setItems, Heap.modify]; repeat' (first | rfl | split)
    · intro i; simp only [Heap.setParent, Heap.setFams, Heap.setItems, Heap.modify]; repeat' (first | rfl | split)
    · intro i; simp only [Heap.flags, Heap.setParent, Heap.setFams, Heap.setItems, Heap.modify]; repeat' (first | rfl | split)
    · intro i; simp only [Heap.setParent, Heap.setFams, Heap.setItems, Heap.modify]; repeat' (first | rfl | split)
    · simp only [Heap.kids, Heap.setParent, Heap.setFams, Heap.setItems, Heap.modify, if_true]; split <;> rfl
    · intro i e; simp only [Heap.kids, Heap.setParent, Heap.setFams, Heap.setItems, Heap.modify, e, if_false]; split <;> rfl
    · exact ⟨n, m, by omega, by omega, by simp [Heap.setParent, Heap.modify]⟩
    · intro i _ e
      have : (((((h.setItems p ((h.kids p).map (swp x y))).setFams p (F.set (h.tag x) ((famView h p (h.tag x)).map (swp x y)))).setParent y (some ⟨p, n, m, false⟩))).node i).parent = (h.node i).parent := by
        simp only [Heap.setParent, Heap.setFams, Heap.setItems, Heap.modify, e, if_false]; split <;> rfl
      rw [this]; exact PEq.refl _
    · simp only [Heap.setParent, Heap.setFams, Heap.setItems, Heap.modify, if_true]; split <;> exact hst
    · intro i e; simp only [Heap.setParent, Heap.setFams, Heap.setItems, Heap.modify, e, if_false]; split <;> rfl
    · refine ⟨F.set (h.tag x) ((famView h p (h.tag x)).map (swp x y)), ?_, hO'.1, ?_⟩
      · simp only [Heap.setParent, Heap.setFams, Heap.setItems, Heap.modify, if_true]; split <;> rfl
      · intro t
        have e : famView (((h.setItems p ((h.kids p).map (swp x y))).setFams p (F.set (h.tag x) ((famView h p (h.tag x)).map (swp x y)))).setParent y (some ⟨p, n, m, false⟩)) p t
            = ((h.kids p).map (swp x y)).filter fun c => h.tag c = t := by
          unfold famView
          congr 1
          · funext c
            congr 1
            simp only [Heap.tag, Heap.setParent, Heap.setFams, Heap.setItems, Heap.modify]
            repeat' (first | rfl | split)
          · simp only [Heap.kids, Heap.setParent, Heap.setFams, Heap.setItems, Heap.modify, if_true]; split <;> rfl
        rw [e]; exact hO'.2 t
    · intro i e; simp only [Heap.setParent, Heap.setFams, Heap.setItems, Heap.modify, e, if_false]; split <;> rfl
  · intro i e
    simp only [Heap.setParent, Heap.setFams, Heap.setItems, Heap.modify, e, if_false]; split <;> rfl

end ITree
