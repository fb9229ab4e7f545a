import Verif.Model.LinksHeap
import Verif.Proofs.MakeLocal2
import Verif.Proofs.Extend2
/-
`load_links` on the heap: putting new and old items below the link root.
-/
namespace ITree

/-- the item an output stands for, if `x` is the new item -/
def outId (x : Id) : LOut Id → Id
  | .new _ => x
  | .old z _ _ => z

/-- the output covers the new item -/
def outCovers (z : Id) : LOut Id → Bool
  | .new _ => false
  | .old x _ c => decide (x = z) && c

theorem appendItem_stray (h : Heap) (p z : Id) : appendItem h p z = appendItem (h.setParent z none) p z := by
  have ht : (h.setParent z none).tag z = h.tag z := tag_setParent _ _ _ _
  have hk : (h.setParent z none).kids p = h.kids p := kids_setParent _ _ _ _
  have hb : (h.setParent z none).boundFams p = h.boundFams p := by
    simp only [Heap.boundFams, Heap.setParent, Heap.modify]; split <;> rfl
  unfold appendItem
  simp only [ht, hk, hb]
  cases h.kids p <;>
  · simp only [Heap.setParent, Heap.setItems, Heap.setFams, Heap.modify, Heap.mk.injEq, and_true]
    funext j
    by_cases e1 : j = z <;> by_cases e2 : j = p <;> simp [e1, e2]
    all_goals (try (subst e1; simp [e2]))
    all_goals (split <;> rfl)

theorem setParent_none_wf {h : Heap} (W : WF h) {z : Id} (hz : ∀ q, z ∉ h.kids q) : WF (h.setParent z none) := by
  have hk : ∀ i, (h.setParent z none).kids i = h.kids i := fun i => kids_setParent _ _ _ _
  have hp : ∀ i, ((h.setParent z none).node i).parent = if i = z then none else (h.node i).parent := by
    intro i; simp only [Heap.setParent, Heap.modify]; split <;> rfl
  have hf : ∀ i, ((h.setParent z none).node i).fams = (h.node i).fams := by
    intro i; simp only [Heap.setParent, Heap.modify]; split <;> rfl
  have hs : ∀ i, ((h.setParent z none).node i).stale = (h.node i).stale := by
    intro i; simp only [Heap.setParent, Heap.modify]; split <;> rfl
  refine ⟨?_, ?_, ?_, ?_, ?_, ?_, ?_⟩
  · intro x hx; rw [hk, hp]; obtain ⟨a, b⟩ := W.fresh x hx; exact ⟨a, by split; rfl; exact b⟩
  · intro p c hc; rw [hk] at hc; exact W.kids_lt p c hc
  · intro p; rw [hk]; exact W.kids_nodup p
  · intro p c hc
    rw [hk] at hc
    rw [hp, if_neg (by rintro rfl; exact hz p hc)]
    exact W.kid_parent p c hc
  · intro p h1; rw [hk] at h1; rw [hs]; exact W.stale_none p h1
  · intro p h1
    rw [hk] at h1
    obtain ⟨F, a, b⟩ := W.fams_ok p h1
    refine ⟨F, by rw [hf]; exact a, ?_⟩
    have hv : ∀ t, famView (h.setParent z none) p t = famView h p t := by
      intro t; simp only [famView, hk, tag_setParent]
    exact ⟨b.1, fun t => by rw [hv]; exact b.2 t⟩
  · intro p F h1 h2; rw [hk] at h1; rw [hf] at h2; exact W.fams_nil p F h1 h2

/-- no way from `a` to `p` appears when only the children of `p` change -/
theorem below_at {h h' : Heap} {p : Id} (hk : ∀ i, i ≠ p → h'.kids i = h.kids i) {a : Id} (b : Below h' a p) : Below h a p := by
  have : ∀ {y}, Below h' a y → Below h a y ∨ Below h a p := by
    intro y b
    induction b with
    | refl => exact Or.inl .refl
    | @step q c _ hc ih =>
      rcases ih with ih | ih
      · by_cases e : q = p
        · subst e; exact Or.inr ih
        · rw [hk q e] at hc; exact Or.inl (.step ih hc)
      · exact Or.inr ih
  rcases this b with h | h <;> exact h

/-- the effect of a row of appends to `p` -/
structure PutSpec (h h' : Heap) (p x : Id) (os : List (LOut Id)) : Prop where
  wf : WF h'
  forest : Forest h'
  next : h'.next = h.next
  tag : ∀ i, h'.tag i = h.tag i
  value : ∀ i, (h'.node i).value = (h.node i).value
  flags : ∀ i, h'.flags i = h.flags i
  link : ∀ i, (h'.node i).link = if os.any (outCovers i) then some { cover := some x } else (h.node i).link
  kids_p : h'.kids p = h.kids p ++ os.map (outId x)
  kids_o : ∀ i, i ≠ p → h'.kids i = h.kids i
  parent : ∀ i, i ∉ os.map (outId x) → (h'.node i).parent = (h.node i).parent

theorem appendItem_parent (h : Heap) (p z i : Id) (hi : i ≠ z) : ((appendItem h p z).node i).parent = (h.node i).parent := by
  unfold appendItem
  cases h.kids p <;>
  · simp only [Heap.setParent, Heap.setItems, Heap.setFams, Heap.modify]
    by_cases e2 : i = p <;> simp [hi, e2]
    try (subst e2; simp [hi])

theorem putOut_spec {h : Heap} (W : WF h) (F : Forest h) {p : Id} (hp : p < h.next) (x : Id) (o : LOut Id) (ho : outId x o < h.next) (hc : ∀ q, outId x o ∉ h.kids q)
    (hb : ¬ Below h (outId x o) p) : PutSpec h (putOut x p h o) p x [o] := by
  -- the heap after writing the link
  obtain ⟨h1, z, e, ez, S, el⟩ : ∃ h1 z, putOut x p h o = appendItem h1 p z ∧ z = outId x o ∧ StructEq h h1 ∧
      ((∀ i, (h1.node i).value = (h.node i).value) ∧ (∀ i, h1.flags i = h.flags i) ∧ ∀ i, (h1.node i).link = if [o].any (outCovers i) then some { cover := some x } else (h.node i).link) := by
    cases o with
    | new k => exact ⟨h, x, rfl, rfl, StructEq.refl h, fun _ => rfl, fun _ => rfl, fun i => by simp [outCovers]⟩
    | old y k c =>
      cases c with
      | false => exact ⟨h, y, rfl, rfl, StructEq.refl h, fun _ => rfl, fun _ => rfl, fun i => by simp [outCovers]⟩
      | true =>
        refine ⟨h.modify y fun n => { n with link := some { cover := some x } }, y, rfl, rfl, DataOnly.structEq (f := fun n => { n with link := some { cover := some x } }) ⟨fun _ => rfl, fun _ => rfl, fun _ => rfl, fun _ => rfl, fun _ => rfl⟩ h y, ?_, ?_, ?_⟩
        · intro i; simp only [Heap.modify]; split <;> rfl
        · intro i; simp only [Heap.flags, Heap.modify]; split <;> rfl
        · intro i
          simp only [Heap.modify, List.any_cons, List.any_nil, outCovers, Bool.and_true, Bool.or_false, decide_eq_true_eq]
          by_cases e : i = y
          · subst e; simp
          · rw [if_neg e, if_neg (fun h => e h.symm)]
  rw [e]
  subst ez
  generalize hzz : outId x o = z at *
  have W1 : WF h1 := S.wf W
  have hc1 : ∀ q, z ∉ h1.kids q := fun q => by rw [S.kids]; exact hc q
  have W2 := setParent_none_wf W1 hc1
  have A := appendItem_attach W2 (p := p) (x := z) (by simp [Heap.setParent, Heap.modify])
  rw [← appendItem_stray] at A
  have hkk : ∀ i, (h1.setParent z none).kids i = h1.kids i := fun i => kids_setParent _ _ _ _
  have hn : (h1.setParent z none).next = h.next := S.next
  refine ⟨A.wf W2 (by rw [hn]; exact hp) (by rw [hn]; exact ho) (Nat.le_refl _) (by simp [Heap.setParent, Heap.modify]), ?_, A.next.trans hn, ?_, ?_, ?_, ?_, ?_, ?_, ?_⟩
  · refine A.forest (Nat.le_refl _) (F.sub fun q c hq => ?_) fun b => hb ?_
    · rw [hkk, S.kids] at hq; exact hq
    · exact (Below.congr fun i => by rw [hkk, S.kids]).1 b
  · intro i; rw [A.tag, tag_setParent, S.tag]
  · intro i; rw [A.value, value_setParent, el.1]
  · intro i; rw [A.flags, flags_setParent, el.2.1]
  · intro i; rw [A.link, link_setParent, el.2.2]
  · rw [A.kids_p, hkk, S.kids, List.insertIdx_length_self]; simp [hzz]
  · intro i e; rw [A.kids_o i e, hkk, S.kids]
  · intro i hi
    rw [appendItem_parent _ _ _ _ (by simpa [hzz] using hi), S.parent]

theorem putAll_spec {p x : Id} : ∀ (os : List (LOut Id)) {h : Heap}, WF h → Forest h → p < h.next → (os.map (outId x)).Nodup →
    (∀ z ∈ os.map (outId x), z < h.next ∧ (∀ q, z ∉ h.kids q) ∧ ¬ Below h z p) → PutSpec h (os.foldl (putOut x p) h) p x os := by
  intro os
  induction os with
  | nil => intro h W F hp _ _; exact ⟨W, F, rfl, fun _ => rfl, fun _ => rfl, fun _ => rfl, fun _ => by simp, by simp, fun _ _ => rfl, fun _ _ => rfl⟩
  | cons o os ih =>
    intro h W F hp hn hz
    obtain ⟨a1, a2, a3⟩ := hz (outId x o) (by simp)
    have P := putOut_spec W F hp x o a1 a2 a3
    rw [List.map_cons, List.nodup_cons] at hn
    have Q := ih P.wf P.forest (by rw [P.next]; exact hp) hn.2 (fun z hzm => by
      obtain ⟨b1, b2, b3⟩ := hz z (List.mem_cons_of_mem _ hzm)
      refine ⟨by rw [P.next]; exact b1, fun q hq => ?_, fun b => b3 (below_at P.kids_o b)⟩
      by_cases e : q = p
      · subst e
        rw [P.kids_p, List.mem_append] at hq
        rcases hq with hq | hq
        · exact b2 _ hq
        · simp at hq; subst hq; exact hn.1 hzm
      · rw [P.kids_o q e] at hq; exact b2 q hq)
    rw [List.foldl_cons]
    refine ⟨Q.wf, Q.forest, Q.next.trans P.next, fun i => (Q.tag i).trans (P.tag i), fun i => (Q.value i).trans (P.value i), fun i => (Q.flags i).trans (P.flags i), ?_, ?_, ?_, ?_⟩
    · intro i
      rw [Q.link, P.link]
      simp only [List.any_cons, List.any_nil, Bool.or_false]
      by_cases h1 : os.any (outCovers i) = true <;> by_cases h2 : outCovers i o = true <;> simp [h1, h2]
    · rw [Q.kids_p, P.kids_p]; simp
    · intro i e; rw [Q.kids_o i e, P.kids_o i e]
    · intro i hi
      simp only [List.map_cons, List.mem_cons, not_or] at hi
      rw [Q.parent i hi.2, P.parent i (by simpa using hi.1)]

end ITree
