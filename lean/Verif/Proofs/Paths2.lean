import Verif.Proofs.Paths
import Verif.Proofs.Climb
/-
The two ways of numbering used by the path iterators.
-/
namespace ITree

theorem writeC_child {h0 h : Heap} (W : WF h0) (H : CEq h0 h) {p y : Id} (hy : y ∈ h0.kids p) (c : Cache) {i : Int} (hi : 0 ≤ i) :
    ∃ h', writeC c h y i = .ok h' ∧ CEq h h' := by
  obtain ⟨r, h1, _, h3, _⟩ := (H.wf W).kid_parent p y (by rw [H.kids]; exact hy)
  exact ⟨_, by simp [writeC, h1, h3], CEq.setC h1 c i hi⟩

/-- the number of an item among the children of `p` -/
def tlIdx (h0 : Heap) (p y : Id) : Int := ((h0.kids p).idxOf y : Nat)
def stIdx (rev : Bool) (h0 : Heap) (p : Id) (j : Nat) : Int := if rev then ((h0.kids p).length : Int) - j else (j : Int) - 1

theorem idxLab_good {h0 : Heap} (W : WF h0) (rev : Bool) : GoodLab (idxLab rev) rev h0 (tlIdx h0) (stIdx rev h0) where
  enter h p H _ := by cases rev <;> simp [idxLab, stIdx, H.kids]
  visit h p j y H hj := by
    have hmem : y ∈ h0.kids p := mem_chOf.1 (List.mem_of_getElem? hj)
    have key : (if rev then stIdx rev h0 p j - 1 else stIdx rev h0 p j + 1) = stIdx rev h0 p (j + 1) ∧ stIdx rev h0 p (j + 1) = tlIdx h0 p y := by
      cases rev with
      | false =>
        simp only [chOf, Bool.false_eq_true, if_false] at hj
        simp only [stIdx, tlIdx, Bool.false_eq_true, if_false, nodup_idxOf_unique (W.kids_nodup p) hj]
        constructor <;> push_cast <;> omega
      | true =>
        simp only [chOf, if_true] at hj
        have hlt := (List.getElem?_eq_some_iff.1 hj).1
        rw [List.length_reverse] at hlt
        rw [List.getElem?_reverse hlt] at hj
        simp only [stIdx, tlIdx, if_true, nodup_idxOf_unique (W.kids_nodup p) hj]
        constructor <;> push_cast <;> omega
    obtain ⟨h', e1, e2⟩ := writeC_child W H hmem .abs (i := stIdx rev h0 p (j + 1)) (by rw [key.2]; simp [tlIdx])
    refine ⟨h', ?_, e2, key.2⟩
    simp only [idxLab, key.1, e1]

/-- the tag and the number of an item among the children of `p` with its tag -/
def tlTag (h0 : Heap) (p y : Id) : TagIdx := .pair (h0.tag y) ((famView h0 p (h0.tag y)).idxOf y : Nat)
/-- number of children with tag `t` among the first `j` -/
def seenTag (rev : Bool) (h0 : Heap) (p : Id) (j : Nat) (t : Tag) : Nat := ((chOf rev h0 p).take j).countP fun c => h0.tag c = t
def stTag (rev : Bool) (h0 : Heap) (p : Id) (j : Nat) : List (Tag × Int) × TagIdx :=
  ((((h0.node p).fams).getD []).map fun e => (e.1, if rev then (e.2.length : Int) - seenTag rev h0 p j e.1 else (seenTag rev h0 p j e.1 : Int) - 1),
    match j with
    | 0 => .none
    | j + 1 => match (chOf rev h0 p)[j]? with | some y => tlTag h0 p y | none => .none)

theorem filter_nth {l : List Id} {f : Id → Bool} {j : Nat} {y : Id} (hj : l[j]? = some y) (hf : f y = true) :
    (l.filter f)[(l.take j).countP f]? = some y := by
  induction l generalizing j with
  | nil => simp at hj
  | cons a r ih =>
    cases j with
    | zero => simp at hj; subst hj; simp [hf]
    | succ j =>
      simp only [List.getElem?_cons_succ] at hj
      have := ih hj
      by_cases ha : f a = true
      · simpa [ha] using this
      · simpa [ha] using this

theorem take_succ_count {l : List Id} {f : Id → Bool} {j : Nat} {y : Id} (hj : l[j]? = some y) :
    (l.take (j + 1)).countP f = (l.take j).countP f + if f y then 1 else 0 := by
  rw [List.take_add_one, hj, List.countP_append]
  by_cases h : f y = true <;> simp [h]

theorem lookup_map {β γ : Type} (F : List (Tag × β)) (g : Tag → β → γ) (t : Tag) :
    (F.map fun e => (e.1, g e.1 e.2)).lookup t = (F.lookup t).map (g t) := by
  induction F with
  | nil => rfl
  | cons e r ih =>
    obtain ⟨a, b⟩ := e
    simp only [List.map_cons, List.lookup_cons]
    by_cases h : t = a
    · subst h; simp
    · have : (t == a) = false := by simpa using h
      simp [this, ih]

theorem mem_lookup {β : Type} {F : List (Tag × β)} (hF : (F.map Prod.fst).Nodup) {e : Tag × β} (he : e ∈ F) : F.lookup e.1 = some e.2 := by
  induction F with
  | nil => simp at he
  | cons a r ih =>
    obtain ⟨a, b⟩ := a
    simp only [List.map_cons, List.nodup_cons] at hF
    rcases List.mem_cons.1 he with rfl | he
    · simp
    · have : e.1 ≠ a := by intro h; exact hF.1 (h ▸ List.mem_map_of_mem he)
      have : (e.1 == a) = false := by simpa using this
      simp only [List.lookup_cons, this]
      exact ih hF.2 he

theorem tagLab_good {h0 : Heap} (W : WF h0) (rev : Bool) : GoodLab (tagLab rev) rev h0 (tlTag h0) (stTag rev h0) where
  enter h p H hne := by
    obtain ⟨F, h1, _⟩ := W.fams_ok p hne
    cases rev <;> simp [tagLab, H.fams, h1, stTag, seenTag]
  visit h p j y H hj := by
    have hmem : y ∈ h0.kids p := mem_chOf.1 (List.mem_of_getElem? hj)
    have hne : h0.kids p ≠ [] := by intro e; rw [e] at hmem; simp at hmem
    obtain ⟨F, h1, O⟩ := W.fams_ok p hne
    have hget : F.lookup (h0.tag y) = some (famView h0 p (h0.tag y)) := O.get_of_mem hmem
    have hnd : (famView h0 p (h0.tag y)).Nodup := (W.kids_nodup p).sublist List.filter_sublist
    have hnth : (if rev then (famView h0 p (h0.tag y)).reverse else famView h0 p (h0.tag y))[seenTag rev h0 p j (h0.tag y)]? = some y := by
      have := filter_nth (f := fun c => decide (h0.tag c = h0.tag y)) hj (by simp)
      cases rev with
      | false => exact this
      | true => simp only [if_true, famView, seenTag, chOf] at this ⊢; rw [← List.filter_reverse]; exact this
    have hval : (if rev then ((famView h0 p (h0.tag y)).length : Int) - seenTag rev h0 p j (h0.tag y) - 1 else (seenTag rev h0 p j (h0.tag y) : Int) - 1 + 1) =
        ((famView h0 p (h0.tag y)).idxOf y : Nat) := by
      cases rev with
      | false => simp only [Bool.false_eq_true, if_false] at hnth ⊢; rw [nodup_idxOf_unique hnd hnth]; omega
      | true =>
        simp only [if_true] at hnth ⊢
        have hlt := (List.getElem?_eq_some_iff.1 hnth).1
        rw [List.length_reverse] at hlt
        rw [List.getElem?_reverse hlt] at hnth
        rw [nodup_idxOf_unique hnd hnth]; omega
    have hlk : (stTag rev h0 p j).1.lookup (h0.tag y) =
        some (if rev then ((famView h0 p (h0.tag y)).length : Int) - seenTag rev h0 p j (h0.tag y) else (seenTag rev h0 p j (h0.tag y) : Int) - 1) := by
      simp only [stTag, h1, Option.getD_some]
      rw [lookup_map F (fun t l => if rev then (l.length : Int) - seenTag rev h0 p j t else (seenTag rev h0 p j t : Int) - 1), hget]
      rfl
    obtain ⟨h', e1, e2⟩ := writeC_child W H hmem .fam (i := ((famView h0 p (h0.tag y)).idxOf y : Nat)) (by simp)
    have hval' : (if rev then (if rev then ((famView h0 p (h0.tag y)).length : Int) - seenTag rev h0 p j (h0.tag y) else (seenTag rev h0 p j (h0.tag y) : Int) - 1) - 1
        else (if rev then ((famView h0 p (h0.tag y)).length : Int) - seenTag rev h0 p j (h0.tag y) else (seenTag rev h0 p j (h0.tag y) : Int) - 1) + 1) =
        ((famView h0 p (h0.tag y)).idxOf y : Nat) := by rw [← hval]; cases rev <;> simp
    refine ⟨h', ?_, e2, ?_⟩
    · simp only [tagLab, H.tag, hlk, hval', e1]
      refine congrArg _ (congrArg (Prod.mk h') ?_)
      have es : (stTag rev h0 p (j + 1)).2 = .pair (h0.tag y) ((famView h0 p (h0.tag y)).idxOf y : Nat) := by
        simp only [stTag, hj, tlTag]
      refine Prod.ext ?_ es.symm
      simp only [stTag, h1, Option.getD_some, List.map_map]
      apply List.map_congr_left
      intro e he
      simp only [Function.comp]
      have hs : seenTag rev h0 p (j + 1) e.1 = seenTag rev h0 p j e.1 + if h0.tag y = e.1 then 1 else 0 := by
        simp only [seenTag, take_succ_count hj]; simp
      by_cases ht : e.1 = h0.tag y
      · rw [if_pos ht]
        refine Prod.ext rfl ?_
        have hl : e.2 = famView h0 p (h0.tag y) := by
          have := mem_lookup O.keys he
          rw [ht, hget] at this; simpa using this.symm
        simp only
        rw [hs, if_pos ht.symm, hl, ht, ← hval]
        cases rev <;> simp <;> omega
      · have ht' : ¬ h0.tag y = e.1 := fun h => ht h.symm
        rw [if_neg ht, hs]; simp [ht']
    · simp only [tagLab, stTag, hj]

/-! the labels are what `get.by_idx` and `get.by_tag_idx` read -/

theorem Leads.byIdx {h0 : Heap} {rev : Bool} {p y : Id} {r : List Int} (L : Leads (l := idxLab rev) h0 (tlIdx h0) p r y) :
    ITree.byIdx h0 p r = .ok y ∧ ∀ i ∈ r, 0 ≤ i := by
  have gen : ∀ {p y : Id} {r : List (idxLab rev).L}, Leads (l := idxLab rev) h0 (tlIdx h0) p r y →
      ∀ r' : List Int, r' = r → ITree.byIdx h0 p r' = .ok y ∧ ∀ i ∈ r', 0 ≤ i := by
    intro p y r L
    induction L with
    | nil p => rintro _ rfl; exact ⟨rfl, fun i hi => by cases hi⟩
    | @cons p c y r hc _ ih =>
      rintro r' hr'
      have hg : pyGet (h0.kids p) (tlIdx h0 p c) = some c := by
        rw [tlIdx, pyGet_nat]; exact List.getElem?_idxOf hc
      obtain ⟨r0, hr0⟩ : ∃ r0 : List Int, r0 = r := ⟨r, rfl⟩
      obtain ⟨i1, i2⟩ := ih r0 hr0
      have hr1 : r' = (tlIdx h0 p c : Int) :: r0 := by subst hr0; exact hr'
      subst hr1
      refine ⟨?_, ?_⟩
      · simp only [ITree.byIdx, hg]; exact i1
      · intro i hi
        rcases List.mem_cons.1 hi with rfl | hi
        · simp [tlIdx]
        · exact i2 i hi
  exact gen L r rfl

theorem Leads.byTagIdx {h0 : Heap} (W : WF h0) {rev : Bool} {p y : Id} {r : List (tagLab rev).L} (L : Leads (l := tagLab rev) h0 (tlTag h0) p r y) :
    ∃ ps : List (Tag × Int), r = (ps.map fun q => TagIdx.pair q.1 q.2 : List TagIdx) ∧ ITree.byTagIdx h0 p ps = .ok y ∧ ∀ q ∈ ps, 0 ≤ q.2 := by
  induction L with
  | nil p => exact ⟨[], rfl, rfl, by simp⟩
  | @cons p c y r hc _ ih =>
    obtain ⟨ps, e1, e2, e3⟩ := ih
    obtain ⟨F, b1, b2, O⟩ := W.bound (p := p) (by intro e; rw [e] at hc; simp at hc)
    have hg : pyGet (famView h0 p (h0.tag c)) (((famView h0 p (h0.tag c)).idxOf c : Nat) : Int) = some c := by
      rw [pyGet_nat]; exact List.getElem?_idxOf (List.mem_filter.2 ⟨hc, by simp⟩)
    refine ⟨(h0.tag c, ((famView h0 p (h0.tag c)).idxOf c : Nat)) :: ps, ?_, ?_, ?_⟩
    · rw [e1]; rfl
    · rw [ITree.byTagIdx, b1, Option.getD_some, O.get_of_mem hc]
      simp only [hg]; exact e2
    · intro q hq
      rcases List.mem_cons.1 hq with rfl | hq
      · simp
      · exact e3 q hq

theorem byIdx_below {h : Heap} : ∀ (a : List Int) (r y : Id), byIdx h r a = .ok y → Below h r y := by
  intro a
  induction a with
  | nil => intro r y e; simp [byIdx] at e; subst e; exact .refl
  | cons i a ih =>
    intro r y e
    simp only [byIdx] at e
    split at e
    · next c hc =>
      have hin := pyGet_mem hc
      have : Below h c y := ih c y e
      clear e ih hc
      induction this with
      | refl => exact .step .refl hin
      | step _ hk ih => exact .step ih hk
    · simp at e

/-- different non-negative index paths lead to different items -/
theorem byIdx_inj {h : Heap} (W : WF h) (Fo : Forest h) : ∀ (a b : List Int) (r y : Id), byIdx h r a = .ok y → byIdx h r b = .ok y →
    (∀ i ∈ a, 0 ≤ i) → (∀ i ∈ b, 0 ≤ i) → a = b := by
  have hnil : ∀ (i : Int) (b : List Int) (r : Id), byIdx h r (i :: b) = .ok r → False := by
    intro i b r eb
    simp only [byIdx] at eb
    split at eb
    · next c hc => exact Fo.irrefl (pyGet_mem hc) (byIdx_below b c r eb)
    · simp at eb
  intro a
  induction a with
  | nil =>
    intro b r y ea eb _ _
    simp [byIdx] at ea; subst ea
    cases b with
    | nil => rfl
    | cons i b => exact (hnil i b r eb).elim
  | cons i a ih =>
    intro b r y ea eb na nb
    cases b with
    | nil => simp [byIdx] at eb; subst eb; exact (hnil i a r ea).elim
    | cons j b =>
      simp only [byIdx] at ea eb
      split at ea
      · rename_i c hc
        split at eb
        · rename_i d hd
          have hcd : c = d := by
            by_contra hne
            exact sibling_disjoint W Fo (pyGet_mem hc) (pyGet_mem hd) hne (byIdx_below a c y ea) (byIdx_below b d y eb)
          subst hcd
          have hi := na i (by simp)
          have hj := nb j (by simp)
          rw [pyGet, if_pos hi] at hc
          rw [pyGet, if_pos hj] at hd
          have : i.toNat = j.toNat := by
            rw [← nodup_idxOf_unique (W.kids_nodup r) hc, ← nodup_idxOf_unique (W.kids_nodup r) hd]
          have : i = j := by omega
          subst this
          rw [ih b c y ea eb (fun k hk => na k (by simp [hk])) (fun k hk => nb k (by simp [hk]))]
        · simp at eb
      · simp at ea

end ITree
