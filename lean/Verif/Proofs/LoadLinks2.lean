import Verif.Proofs.LoadLinks
import Verif.Proofs.Query
/-
`load_links` on the heap: one child of the source after the other.
-/
namespace ITree

/-- a family position found without a full search changes at most the own cache -/
theorem tagIdx_pair_node {h : Heap} (W : WF h) {p x : Id} (hx : x ∈ h.kids p) {t : Tag} {m : Int} (hm : (h.tagIdx x).2 = .ok (.pair t m)) (i : Id) (hi : i ≠ x) :
    (h.tagIdx x).1.node i = h.node i := by
  obtain ⟨r, e1, e2, e3, e4⟩ := tagIdx_eq W hx
  rw [e4] at hm ⊢
  simp only at hm ⊢
  have hq : ∃ j, (cachedPos .fam h x r (famView h p (h.tag x))).2 = .ok (j, false) := by
    generalize (cachedPos .fam h x r (famView h p (h.tag x))).2 = q at hm
    cases q with
    | error e => simp at hm
    | ok q => obtain ⟨j, b⟩ := q; cases b with
      | false => exact ⟨j, rfl⟩
      | true => simp at hm
  obtain ⟨j, hj⟩ := hq
  have set : ∀ r', (h.setParent x r').node i = h.node i := fun r' => by simp [Heap.setParent, Heap.modify, hi]
  unfold cachedPos at hj ⊢
  simp only at hj ⊢
  split at hj
  · next hlt =>
    rw [if_pos hlt]
    split at hj
    · simp at hj
    · next y hy =>
      split at hj
      · next e => rw [if_pos e]
      · next e =>
        rw [if_neg e]
        split at hj
        · next w hw =>
          split
          · rfl
          · exact set _
        · next hw => simp only at hj; split at hj <;> simp at hj
  · next hlt =>
    rw [if_neg hlt]
    split at hj
    · next w hw =>
      split
      · rfl
      · exact set _
    · next hw => simp only at hj; split at hj <;> simp at hj

/-- the linked clone of a tree -/
def linkedTree (T : Tree) : Tree := linkClone T (chainUp (Tree.preL T.kids))

theorem linkedItem_plain (load : Heap → Id → Res Bool) (h : Heap) (c : Id) (hr : (h.flags c).has Flags.linkRoot = false) (hl : (h.flags c).has Flags.linked = false) (hf : (h.tree c).flags = h.flags c) :
    linkedItem load h c = ((build h (linkedTree (h.tree c))).1, .ok (build h (linkedTree (h.tree c))).2) := by
  have e := convert_eq (h.tree c) (by rw [hf]; exact hl) (convFuel (h.tree c)) (Nat.le_refl _)
  simp only [linkedItem, Heap.isLinkRoot, hr, hl, e, linkedTree]
  simp

theorem mem_numbered_iff {h : Heap} {s c : Id} {t : Tag} {n : Nat} (W : WF h) : ((t, n), c) ∈ numbered h s ↔ c ∈ h.kids s ∧ h.tag c = t ∧ (famView h s t)[n]? = some c := by
  constructor
  · intro hm
    simp only [numbered, List.mem_map, Prod.mk.injEq] at hm
    obtain ⟨⟨x, i⟩, hi, ⟨rfl, rfl⟩, rfl⟩ := hm
    have hx : (h.kids s)[i]? = some x := List.mem_zipIdx_iff_getElem?.1 hi
    have hg := filter_take_get (q := fun y => decide (h.tag y = h.tag x)) hx (by simp)
    exact ⟨List.mem_of_getElem? hx, rfl, hg⟩
  · rintro ⟨hc, rfl, hn⟩
    obtain ⟨i, hi⟩ := List.mem_iff_getElem?.1 hc
    have hg := filter_take_get (q := fun y => decide (h.tag y = h.tag c)) hi (by simp)
    have hnd : (famView h s (h.tag c)).Nodup := (W.kids_nodup s).filter _
    have en : n = (((h.kids s).take i).filter fun y => decide (h.tag y = h.tag c)).length := by
      obtain ⟨l1, e1⟩ := List.getElem?_eq_some_iff.1 hn
      obtain ⟨l2, e2⟩ := List.getElem?_eq_some_iff.1 hg
      exact (List.Nodup.getElem_inj_iff hnd).1 (e1.trans e2.symm)
    subst en
    simp only [numbered, List.mem_map, Prod.mk.injEq]
    exact ⟨(c, i), List.mem_zipIdx_iff_getElem?.2 hi, ⟨rfl, rfl⟩, rfl⟩

/-- `tag_idx` of a child, if it is a pair, is the key of the child -/
theorem tagIdx_numbered {h : Heap} (W : WF h) {s c : Id} {t : Tag} {n : Nat} (hm : ((t, n), c) ∈ numbered h s) (hp : ∃ t' m, (h.tagIdx c).2 = .ok (.pair t' m)) :
    (h.tagIdx c).2 = .ok (.pair t n) := by
  obtain ⟨hc, rfl, hn⟩ := (mem_numbered_iff W).1 hm
  obtain ⟨m, h1, h2⟩ := tagIdx_child W hc
  obtain ⟨t', m', hp⟩ := hp
  have hnd : (famView h s (h.tag c)).Nodup := (W.kids_nodup s).filter _
  have en : n = m := by
    obtain ⟨l1, e1⟩ := List.getElem?_eq_some_iff.1 hn
    obtain ⟨l2, e2⟩ := List.getElem?_eq_some_iff.1 h1
    exact (List.Nodup.getElem_inj_iff hnd).1 (e1.trans e2.symm)
  subst en
  rcases h2 with h2 | h2
  · exact h2
  · rw [h2] at hp; simp at hp

theorem numbered_keys_nodup {h : Heap} (W : WF h) (p : Id) : ((numbered h p).map Prod.fst).Nodup := by
  have h1 : ((numbered h p).map Prod.snd).Nodup := by rw [numbered_items]; exact W.kids_nodup p
  rw [List.nodup_map_iff_inj_on h1.of_map]
  rintro ⟨⟨t, n⟩, c⟩ hc ⟨⟨t', n'⟩, c'⟩ hc' e
  simp only [Prod.mk.injEq] at e
  obtain ⟨rfl, rfl⟩ := e
  obtain ⟨_, _, a⟩ := (mem_numbered_iff W).1 hc
  obtain ⟨_, _, b⟩ := (mem_numbered_iff W).1 hc'
  rw [a] at b; simp at b; rw [b]

/-- `k in s` for a key -/
theorem contains_key {h : Heap} (W : WF h) (s : Id) (k : LKey) : containsTarget h s (.key k.1 (.int k.2)) = decide (k ∈ (numbered h s).map Prod.fst) := by
  obtain ⟨t, n⟩ := k
  by_cases hk : h.kids s = []
  · have : numbered h s = [] := by simp [numbered, hk]
    simp [containsTarget, getItem, hk, this]
  · obtain ⟨F, hb, -, O⟩ := W.bound hk
    have hg := O.2 t
    have hmem : (t, n) ∈ (numbered h s).map Prod.fst ↔ n < (famView h s t).length := by
      constructor
      · intro hm
        obtain ⟨⟨k, c⟩, h1, rfl⟩ := List.mem_map.1 hm
        obtain ⟨_, _, h3⟩ := (mem_numbered_iff W).1 h1
        exact (List.getElem?_eq_some_iff.1 h3).1
      · intro hl
        have h3 : (famView h s t)[n]? = some (famView h s t)[n] := List.getElem?_eq_getElem hl
        have h4 := List.mem_of_getElem? h3
        obtain ⟨h5, h6⟩ := mem_famView.1 h4
        exact List.mem_map.2 ⟨((t, n), _), (mem_numbered_iff W).2 ⟨h5, h6, h3⟩, rfl⟩
    simp only [containsTarget, getItem, if_neg hk, getItem1, hb, Option.getD_some, getKey]
    rw [hg]
    have fb : ∀ tg e, (match fallbackTag F tg e with | .ok (.one _) => true | .ok (.many _) => false | .error _ => false) = false := by
      intro tg e
      unfold fallbackTag
      cases tg.asTag with
      | none => rfl
      | some u => simp only; generalize F.get? u = q; cases q <;> rfl
    by_cases hv : famView h s t = []
    · rw [if_pos hv]
      have : ¬ (t, n) ∈ (numbered h s).map Prod.fst := by rw [hmem, hv]; simp
      rw [decide_eq_false this]
      exact fb _ _
    · rw [if_neg hv]
      simp only [pyGet, Int.natCast_nonneg, if_true, Int.toNat_natCast]
      by_cases hl : n < (famView h s t).length
      · rw [List.getElem?_eq_getElem hl, decide_eq_true (hmem.2 hl)]
      · rw [List.getElem?_eq_none (by omega), decide_eq_false (fun h => hl (hmem.1 h))]
        exact fb _ _

end ITree
