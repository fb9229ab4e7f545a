import Verif.Proofs.LoadLinks2
/-
`load_links` on the heap: the loop over the children of the source.
-/
namespace ITree

/-- the item an output stands for -/
def resolve (nid : LKey → Id) : LOut Id → Id
  | .new k => nid k
  | .old z _ _ => z

/-- the outputs for one key, and the entries left -/
def stepOuts (inSrc : LKey → Bool) (key : LKey) (E : List (LEntry Id)) : List (LOut Id) :=
  if key ∈ E.map (·.1) then (collect inSrc key E []).map (·.2) else [.new key]
def stepRest (inSrc : LKey → Bool) (key : LKey) (E : List (LEntry Id)) : List (LEntry Id) :=
  if key ∈ E.map (·.1) then removeKeys ((collect inSrc key E []).map (·.1)) E else E

theorem mergeLoop_step (inSrc : LKey → Bool) (key : LKey) (rest : List LKey) (E : List (LEntry Id)) :
    mergeLoop inSrc (key :: rest) E = stepOuts inSrc key E ++ mergeLoop inSrc rest (stepRest inSrc key E) := by
  rw [mergeLoop]; unfold stepOuts stepRest; split <;> rfl

theorem stepOuts_stands (inSrc : LKey → Bool) (key : LKey) (E : List (LEntry Id)) : (stepOuts inSrc key E).filterMap LOut.stands = [key] := by
  unfold stepOuts
  split
  · next h => rw [List.filterMap_map]; exact collect_stands inSrc key E h [] rfl
  · rfl

theorem stands_unique {os : List (LOut Id)} {key : LKey} (h : os.filterMap LOut.stands = [key]) {o : LOut Id} (ho : o ∈ os) {k : LKey} (hs : o.stands = some k) : k = key := by
  have : k ∈ os.filterMap LOut.stands := List.mem_filterMap.2 ⟨o, ho, hs⟩
  rw [h] at this; simpa using this

/-- the old items among the outputs and those left are distinct -/
theorem stepOuts_kept (inSrc : LKey → Bool) (key : LKey) (E : List (LEntry Id)) (hn : (E.filterMap (·.2)).Nodup) :
    ((stepOuts inSrc key E).filterMap LOut.kept).Nodup ∧ (∀ z ∈ (stepOuts inSrc key E).filterMap LOut.kept, z ∈ E.filterMap (·.2)) ∧
    ((stepRest inSrc key E).filterMap (·.2)).Sublist (E.filterMap (·.2)) ∧
    ∀ z ∈ (stepOuts inSrc key E).filterMap LOut.kept, z ∉ (stepRest inSrc key E).filterMap (·.2) := by
  unfold stepOuts stepRest
  split
  · next hk =>
    obtain ⟨A, B, h1, h2, h3⟩ := collect_sub inSrc key E hk []
    have e2 : (collect inSrc key E []).map (·.1) = A.map (·.1) := by rw [h2]; cases B <;> simp
    have e3 : (collect inSrc key E []).filterMap (fun p => p.2.kept) = A.filterMap (·.2) := by rw [h3]; cases B <;> simp
    have e4 : ((collect inSrc key E []).map (·.2)).filterMap LOut.kept = A.filterMap (·.2) := by rw [List.filterMap_map]; exact e3
    rw [e4, e2]
    have hs := h1.filterMap (·.2)
    refine ⟨hs.nodup hn, fun z hz => hs.subset hz, (List.filter_sublist (l := E)).filterMap _, ?_⟩
    intro z hz hz'
    obtain ⟨a, ha, ea⟩ := List.mem_filterMap.1 hz
    obtain ⟨b, hb, eb⟩ := List.mem_filterMap.1 hz'
    obtain ⟨hb, hbk⟩ := List.mem_filter.1 hb
    have haE := h1.subset ha
    have : a = b := by
      have inj : ∀ {l : List (LEntry Id)}, (l.filterMap (·.2)).Nodup → ∀ a ∈ l, ∀ b ∈ l, a.2 = some z → b.2 = some z → a = b := by
        intro l
        induction l with
        | nil => intro _ a ha; simp at ha
        | cons e l ih =>
          intro hn a ha b hb ea eb
          have mem : ∀ c ∈ l, c.2 = some z → z ∈ l.filterMap (·.2) := fun c hc ec => List.mem_filterMap.2 ⟨c, hc, ec⟩
          cases he : e.2 with
          | none =>
            rw [List.filterMap_cons, he] at hn
            rcases List.mem_cons.1 ha with rfl | ha
            · rw [he] at ea; simp at ea
            rcases List.mem_cons.1 hb with rfl | hb
            · rw [he] at eb; simp at eb
            exact ih hn a ha b hb ea eb
          | some w =>
            rw [List.filterMap_cons, he] at hn
            obtain ⟨n1, n2⟩ := List.nodup_cons.1 hn
            rcases List.mem_cons.1 ha with e1 | ha' <;> rcases List.mem_cons.1 hb with e2 | hb'
            · rw [e1, e2]
            · rw [e1, he] at ea; simp at ea; subst ea; exact absurd (mem b hb' eb) n1
            · rw [e2, he] at eb; simp at eb; subst eb; exact absurd (mem a ha' ea) n1
            · exact ih n2 a ha' b hb' ea eb
      exact inj hn a haE b hb ea eb
    subst this
    exact (of_decide_eq_true hbk) (List.mem_map.2 ⟨a, ha, rfl⟩)
  · have e : ([LOut.new key] : List (LOut Id)).filterMap LOut.kept = [] := rfl
    rw [e]
    exact ⟨List.nodup_nil, fun z hz => absurd hz (by simp), List.Sublist.refl _, fun z hz => absurd hz (by simp)⟩

/-- the items put below the root: the new one at most once, the others from the entries -/
theorem outIds_nodup {x : Id} : ∀ {os : List (LOut Id)} {key : LKey}, os.filterMap LOut.stands = [key] → (os.filterMap LOut.kept).Nodup → x ∉ os.filterMap LOut.kept → (os.map (outId x)).Nodup := by
  have aux : ∀ {os : List (LOut Id)}, (∀ k, LOut.new k ∉ os) → os.map (outId x) = os.filterMap LOut.kept := by
    intro os h
    induction os with
    | nil => rfl
    | cons o os ih =>
      cases o with
      | new k => exact absurd (by simp) (h k)
      | old z k c => simp [outId, LOut.kept, ih (fun k hk => h k (by simp [hk]))]
  intro os
  induction os with
  | nil => intro key h; simp at h
  | cons o os ih =>
    intro key h1 h2 h3
    cases o with
    | new k =>
      simp only [List.filterMap_cons, LOut.stands, List.cons.injEq] at h1
      have hno : ∀ k, LOut.new k ∉ os := fun k hk => by
        have := List.mem_filterMap.2 ⟨_, hk, (rfl : LOut.stands (.new k : LOut Id) = some k)⟩
        rw [h1.2] at this; simp at this
      simp only [List.filterMap_cons, LOut.kept] at h2 h3
      rw [List.map_cons, aux hno]
      exact List.nodup_cons.2 ⟨h3, h2⟩
    | old z k c =>
      simp only [List.filterMap_cons, LOut.kept, List.nodup_cons, List.mem_cons, not_or] at h2 h3
      rw [List.map_cons, List.nodup_cons]
      cases c with
      | true =>
        simp only [List.filterMap_cons, LOut.stands, List.cons.injEq] at h1
        have hno : ∀ k, LOut.new k ∉ os := fun k hk => by
          have := List.mem_filterMap.2 ⟨_, hk, (rfl : LOut.stands (.new k : LOut Id) = some k)⟩
          rw [h1.2] at this; simp at this
        rw [aux hno]
        exact h2
      | false =>
        simp only [List.filterMap_cons, LOut.stands] at h1
        refine ⟨fun hm => ?_, ih h1 h2.2 h3.2⟩
        obtain ⟨o, ho, e⟩ := List.mem_map.1 hm
        cases o with
        | new k' => exact h3.1 (by simpa [outId] using e)
        | old z' k' c' =>
          simp only [outId] at e
          subst e
          exact h2.1 (List.mem_filterMap.2 ⟨_, ho, rfl⟩)

/-! ### the loop -/

/-- what holds before every round -/
structure LoopPre (h : Heap) (p s : Id) (cs : List (LKey × Id)) (E : List (LEntry Id)) : Prop where
  wf : WF h
  forest : Forest h
  lt : p < h.next
  ne : s ≠ p
  sub : ∀ e ∈ cs, e ∈ numbered h s
  keys : (cs.map (·.1)).Nodup
  apart : ∀ e ∈ cs, p ∉ (h.tree e.2).ids ∧ ∀ z ∈ E.filterMap (·.2), z ∉ (h.tree e.2).ids
  plain : ∀ e ∈ cs, (h.flags e.2).has Flags.linkRoot = false ∧ (h.flags e.2).has Flags.linked = false
  pair : ∀ e ∈ cs, (h.tagIdx e.2).2 = .ok (.pair e.1.1 e.1.2)
  nodup : (E.filterMap (·.2)).Nodup
  stray : ∀ z ∈ E.filterMap (·.2), z < h.next ∧ (∀ q, z ∉ h.kids q) ∧ ¬ Below h z p ∧ h.par z = some p

/-- `tag_idx` of `c` delivers a pair at once -/
def Readable (h : Heap) (c : Id) : Prop := ∃ m, (h.tagIdx c).2 = .ok (.pair (h.tag c) m)

/-- … and still does if nothing that matters was changed -/
theorem Readable.congr {h h1 : Heap} (W : WF h) (W1 : WF h1) {p x : Id} (hx : x ∈ h.kids p) (hk : h1.kids p = h.kids p) (ht : ∀ c ∈ h.kids p, h1.tag c = h.tag c)
    (hr : (h1.node x).parent.map (fun r => (r.pid, r.famC, r.frozen)) = (h.node x).parent.map fun r => (r.pid, r.famC, r.frozen)) (R : Readable h x) : Readable h1 x := by
  obtain ⟨m, hm⟩ := R
  exact ⟨m, by rw [ht x hx]; exact tagIdx_pair_congr W W1 hx hk ht hr hm⟩

/-- the effect of the loop, with the outputs `os` below the root -/
structure LoadSpec (h h' : Heap) (p : Id) (X : List Id) (nid : LKey → Id) (cs : List (LKey × Id)) (os : List (LOut Id)) : Prop where
  wf : WF h'
  forest : Forest h'
  next : h.next ≤ h'.next
  tag : ∀ i, i < h.next → h'.tag i = h.tag i
  value : ∀ i, i < h.next → (h'.node i).value = (h.node i).value
  flags : ∀ i, i < h.next → h'.flags i = h.flags i
  kids_o : ∀ i, i < h.next → i ≠ p → h'.kids i = h.kids i
  kids_p : h'.kids p = h.kids p ++ os.map (resolve nid)
  link : ∀ i, i < h.next → (∀ k, LOut.old i k true ∉ os) → (h'.node i).link = (h.node i).link
  cover : ∀ i k, LOut.old i k true ∈ os → (h'.node i).link = some { cover := some (nid k) }
  par : ∀ i, i < h.next → i ∉ X → h'.par i = h.par i
  new : ∀ e ∈ cs, ∃ T : Tree, T.id = nid e.1 ∧ Rep h' T ∧ T.shape = (linkedTree (h.tree e.2)).copyShape ∧ ∀ i ∈ T.ids, h.next ≤ i ∧ i < h'.next
  distinct : (cs.map fun e => nid e.1).Nodup
  free : ∀ e ∈ cs, nid e.1 ∉ h'.kids p → h'.par (nid e.1) = none
  reads : ∀ q c, q < h.next → q ≠ p → c ∈ h.kids q → c ∉ X → Readable h c → Readable h' c

/-- from an old item only old ways lead to `p` -/
theorem below_old {h h' : Heap} (W : WF h) {p : Id} (hk : ∀ i, i < h.next → i ≠ p → h'.kids i = h.kids i) {a : Id} (ha : a < h.next) (b : Below h' a p) : Below h a p := by
  have : ∀ {y}, Below h' a y → (y < h.next ∧ Below h a y) ∨ Below h a p := by
    intro y b
    induction b with
    | refl => exact Or.inl ⟨ha, .refl⟩
    | @step q c _ hc ih =>
      rcases ih with ⟨i1, i2⟩ | ih
      · by_cases e : q = p
        · subst e; exact Or.inr i2
        · rw [hk q i1 e] at hc; exact Or.inl ⟨W.kids_lt q c hc, .step i2 hc⟩
      · exact Or.inr ih
  rcases this b with h | h
  · exact h.2
  · exact h

/-- the rest of the local items is appended (itree_main.py 3353-3354) -/
theorem foldAppend_eq (p x : Id) (E : List (LEntry Id)) (h : Heap) : (E.filterMap (·.2)).foldl (fun h z => appendItem h p z) h =
    (E.filterMap fun e => e.2.map fun z => (LOut.old z e.1 false : LOut Id)).foldl (putOut x p) h := by
  induction E generalizing h with
  | nil => rfl
  | cons e E ih =>
    cases he : e.2 with
    | none => simp only [List.filterMap_cons, he, Option.map_none]; exact ih h
    | some z => simp only [List.filterMap_cons, he, Option.map_some, List.foldl_cons]; exact ih _

end ITree
