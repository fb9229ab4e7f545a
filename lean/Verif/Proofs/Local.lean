import Verif.Proofs.Lists
import Verif.Spec.Frame
/-
Elementary transitions of the heap and what they preserve.
-/
namespace ITree

/-- the part of `WF` about one item -/
structure LocalOK (h : Heap) (p : Id) : Prop where
  lt : ∀ c, c ∈ h.kids p → c < h.next
  nodup : (h.kids p).Nodup
  par : ∀ c, c ∈ h.kids p → ∃ r, (h.node c).parent = some r ∧ r.pid = p ∧ r.frozen = false ∧ 0 ≤ r.absC ∧ 0 ≤ r.famC
  stale : h.kids p ≠ [] → (h.node p).stale = none
  fams : h.kids p ≠ [] → ∃ F, (h.node p).fams = some F ∧ FamOK h p F
  fnil : ∀ F, h.kids p = [] → (h.node p).fams = some F → F = []

theorem WF.local {h : Heap} (W : WF h) (p : Id) : LocalOK h p :=
  ⟨W.kids_lt p, W.kids_nodup p, W.kid_parent p, W.stale_none p, W.fams_ok p, W.fams_nil p⟩

theorem WF.ofLocal {h : Heap} (hf : ∀ x, h.next ≤ x → h.kids x = [] ∧ (h.node x).parent = none) (L : ∀ p, LocalOK h p) : WF h :=
  ⟨hf, fun p => (L p).lt, fun p => (L p).nodup, fun p => (L p).par, fun p => (L p).stale, fun p => (L p).fams, fun p => (L p).fnil⟩

theorem WF.lt_of_kids {h : Heap} (W : WF h) {p : Id} (hp : h.kids p ≠ []) : p < h.next := by
  rcases Nat.lt_or_ge p h.next with hlt | hge
  · exact hlt
  · exact (hp (W.fresh p hge).1).elim

theorem WF.lt_of_parent {h : Heap} (W : WF h) {x : Id} {r} (hx : (h.node x).parent = some r) : x < h.next := by
  rcases Nat.lt_or_ge x h.next with hlt | hge
  · exact hlt
  · rw [(W.fresh x hge).2] at hx; simp at hx

/-- an item is a child of at most one item -/
theorem WF.parent_unique {h : Heap} (W : WF h) {p q c : Id} (h1 : c ∈ h.kids p) (h2 : c ∈ h.kids q) : p = q := by
  obtain ⟨r, a, b, _⟩ := W.kid_parent p c h1
  obtain ⟨r', a', b', _⟩ := W.kid_parent q c h2
  rw [a] at a'; cases a'; exact b.symm.trans b'

theorem WF.not_child {h : Heap} (W : WF h) {x : Id} (hx : (h.node x).parent = none) (p : Id) : x ∉ h.kids p := fun hm => by
  obtain ⟨r, a, _⟩ := W.kid_parent p x hm
  rw [hx] at a; simp at a

/-- transfer of `WF` when only item `p` changed structurally -/
theorem WF.update {h h' : Heap} (W : WF h) (p : Id) (hn : h.next ≤ h'.next)
    (hfresh : ∀ x, h'.next ≤ x → h'.kids x = [] ∧ (h'.node x).parent = none)
    (hk : ∀ i, i ≠ p → h'.kids i = h.kids i)
    (hf : ∀ i, i ≠ p → h.kids i ≠ [] → (h'.node i).fams = (h.node i).fams)
    (hf0 : ∀ i F, i ≠ p → h.kids i = [] → (h'.node i).fams = some F → F = [])
    (hs : ∀ i, i ≠ p → h.kids i ≠ [] → (h'.node i).stale = (h.node i).stale)
    (ht : ∀ i, i ≠ p → ∀ c ∈ h.kids i, h'.tag c = h.tag c)
    (hp : ∀ i, i ≠ p → ∀ c ∈ h.kids i, PEq (h.node c).parent (h'.node c).parent)
    (L : LocalOK h' p) : WF h' := by
  refine WF.ofLocal hfresh fun i => ?_
  by_cases e : i = p
  · subst e; exact L
  · have hi := W.local i
    constructor
    · intro c hc; rw [hk i e] at hc; exact Nat.lt_of_lt_of_le (hi.lt c hc) hn
    · rw [hk i e]; exact hi.nodup
    · intro c hc
      rw [hk i e] at hc
      obtain ⟨r, h1, h2, h3, h4, h5⟩ := hi.par c hc
      have := hp i e c hc
      rw [h1] at this
      cases h6 : (h'.node c).parent with
      | none => rw [h6] at this; exact this.elim
      | some r' =>
        rw [h6] at this
        exact ⟨r', rfl, this.1.trans h2, this.2.1.trans h3, this.2.2.1 h4, this.2.2.2 h5⟩
    · intro hne; rw [hk i e] at hne; rw [hs i e hne]; exact hi.stale hne
    · intro hne
      rw [hk i e] at hne
      obtain ⟨F, h1, h2⟩ := hi.fams hne
      refine ⟨F, by rw [hf i e hne]; exact h1, h2.keys, fun t => ?_⟩
      have : famView h' i t = famView h i t := by
        simp only [famView, hk i e]
        apply List.filter_congr
        intro c hc
        simp only [ht i e c hc]
      rw [this]; exact h2.get t
    · intro F h1 h2; rw [hk i e] at h1; exact hf0 i F e h1 h2

/-- the families of `p` as seen by the code -/
theorem WF.bound {h : Heap} (W : WF h) {p : Id} (hp : h.kids p ≠ []) : ∃ F, h.boundFams p = some F ∧ (h.node p).fams = some F ∧ FamOK h p F := by
  obtain ⟨F, h1, h2⟩ := W.fams_ok p hp
  exact ⟨F, by simp [Heap.boundFams, W.stale_none p hp, h1], h1, h2⟩

theorem FamOK.get_of_mem {h : Heap} {p : Id} {F : Fams} (O : FamOK h p F) {c : Id} (hc : c ∈ h.kids p) :
    F.get? (h.tag c) = some (famView h p (h.tag c)) := by
  rw [O.get, if_neg]
  intro he
  have : c ∈ famView h p (h.tag c) := by simp [famView, hc]
  rw [he] at this; simp at this

/-! ### attaching an item -/

/-- `x` becomes a child of `p` at position `n` -/
structure AttachRel (h h' : Heap) (p x : Id) (n : Nat) : Prop where
  next : h'.next = h.next
  tag : ∀ i, h'.tag i = h.tag i
  value : ∀ i, (h'.node i).value = (h.node i).value
  flags : ∀ i, h'.flags i = h.flags i
  link : ∀ i, (h'.node i).link = (h.node i).link
  kids_p : h'.kids p = (h.kids p).insertIdx n x
  kids_o : ∀ i, i ≠ p → h'.kids i = h.kids i
  par_x : ∃ a b, 0 ≤ a ∧ 0 ≤ b ∧ (h'.node x).parent = some ⟨p, a, b, false⟩
  par_o : ∀ i, i ≠ x → PEq (h.node i).parent (h'.node i).parent
  stale_p : (h'.node p).stale = none
  stale_o : ∀ i, i ≠ p → (h'.node i).stale = (h.node i).stale
  fams_p : ∃ F, (h'.node p).fams = some F ∧ (F.map Prod.fst).Nodup ∧
    ∀ t, F.get? t = if famView h' p t = [] then none else some (famView h' p t)
  fams_o : ∀ i, i ≠ p → (h'.node i).fams = (h.node i).fams

theorem PEq.par {a b : Option PRef} (H : PEq a b) : b.map (·.pid) = a.map (·.pid) := by
  cases a <;> cases b <;> simp_all [PEq]

theorem AttachRel.wf {h h' : Heap} {p x : Id} {n : Nat} (A : AttachRel h h' p x n) (W : WF h) (hp : p < h.next) (hx : x < h.next)
    (hn : n ≤ (h.kids p).length) (hxp : (h.node x).parent = none) : WF h' := by
  have hxk := W.not_child hxp
  refine W.update p (by rw [A.next]) ?_ A.kids_o (fun i e _ => A.fams_o i e) ?_ (fun i e _ => A.stale_o i e)
    (fun i _ c _ => A.tag c) ?_ ?_
  · intro y hy
    rw [A.next] at hy
    obtain ⟨h1, h2⟩ := W.fresh y hy
    refine ⟨by rw [A.kids_o y (by omega)]; exact h1, ?_⟩
    have := A.par_o y (by omega)
    rw [h2] at this
    cases h3 : (h'.node y).parent with
    | none => rfl
    | some r => rw [h3] at this; exact this.elim
  · intro i F e h1 h2; rw [A.fams_o i e] at h2; exact W.fams_nil i F h1 h2
  · intro i e c hc; exact A.par_o c (fun e' => hxk i (e' ▸ hc))
  · constructor
    · intro c hc
      rw [A.kids_p, mem_insertIdx' hn] at hc
      rw [A.next]
      rcases hc with rfl | hc
      · exact hx
      · exact W.kids_lt p c hc
    · rw [A.kids_p]; exact insertIdx_nodup (W.kids_nodup p) (hxk p) hn
    · intro c hc
      rw [A.kids_p, mem_insertIdx' hn] at hc
      rcases hc with rfl | hc
      · obtain ⟨a, b, ha, hb, hr⟩ := A.par_x
        exact ⟨_, hr, rfl, rfl, ha, hb⟩
      · obtain ⟨r, h1, h2, h3, h4, h5⟩ := W.kid_parent p c hc
        have := A.par_o c (fun e' => hxk p (e' ▸ hc))
        rw [h1] at this
        cases h6 : (h'.node c).parent with
        | none => rw [h6] at this; exact this.elim
        | some r' =>
          rw [h6] at this
          exact ⟨r', rfl, this.1.trans h2, this.2.1.trans h3, this.2.2.1 h4, this.2.2.2 h5⟩
    · intro _; exact A.stale_p
    · intro _; obtain ⟨F, h1, h2, h3⟩ := A.fams_p; exact ⟨F, h1, h2, h3⟩
    · intro F hnil _
      exfalso
      rw [A.kids_p] at hnil
      have : x ∈ (h.kids p).insertIdx n x := (mem_insertIdx' hn).2 (Or.inl rfl)
      rw [hnil] at this; simp at this

theorem AttachRel.frame {h h' : Heap} {p x : Id} {n : Nat} (A : AttachRel h h' p x n) : Frame h h' (· = p) (· = x) where
  next := Nat.le_of_eq A.next.symm
  tag i _ := A.tag i
  value i _ := A.value i
  flags i _ := A.flags i
  link i _ := A.link i
  kids i _ e := A.kids_o i e
  par i _ e := by simp only [Heap.par]; exact (A.par_o i e).par

theorem AttachRel.par' {h h' : Heap} {p x : Id} {n : Nat} (A : AttachRel h h' p x n) (i : Id) :
    h'.par i = if i = x then some p else h.par i := by
  split
  · next e => subst e; obtain ⟨a, b, _, _, hr⟩ := A.par_x; simp [Heap.par, hr]
  · next e => simp only [Heap.par]; exact (A.par_o i e).par

theorem AttachRel.noZombie {h h' : Heap} {p x : Id} {n : Nat} (A : AttachRel h h' p x n) (hn : n ≤ (h.kids p).length)
    (Z : NoZombie h) : NoZombie h' := by
  intro c q hc
  rw [A.par'] at hc
  split at hc
  · next e => simp at hc; subst hc e; rw [A.kids_p, mem_insertIdx' hn]; left; rfl
  · have := Z c q hc
    by_cases e : q = p
    · subst e; rw [A.kids_p, mem_insertIdx' hn]; right; exact this
    · rw [A.kids_o q e]; exact this

/-- families after inserting `x` at position `n` -/
theorem famOK_insert {x : Id} {F : Fams} {L : List Id} {n : Nat} {tagOf : Id → Tag} 
    (hn : n ≤ L.length)
    (hkeys : (F.map Prod.fst).Nodup)
    (hget : ∀ t, F.get? t = if L.filter (fun c => tagOf c = t) = [] then none else some (L.filter fun c => tagOf c = t))
    (l : List Id) (hl : l = (L.filter fun c => tagOf c = tagOf x).insertIdx ((L.take n).filter fun c => tagOf c = tagOf x).length x) :
    ((F.set (tagOf x) l).map Prod.fst).Nodup ∧ ∀ t, (F.set (tagOf x) l).get? t =
      if (L.insertIdx n x).filter (fun c => tagOf c = t) = [] then none else some ((L.insertIdx n x).filter fun c => tagOf c = t) := by
  refine ⟨Fams.keys_set _ _ _ hkeys, fun t => ?_⟩
  rw [Fams.get?_set, filter_insertIdx _ _ _ _ hn]
  by_cases e : t = tagOf x
  · subst e
    have hne : (L.filter fun c => tagOf c = tagOf x).insertIdx ((L.take n).filter fun c => tagOf c = tagOf x).length x ≠ [] := by
      intro hnil
      have := congrArg List.length hnil
      rw [List.length_insertIdx_of_le_length] at this
      · simp at this
      · exact (List.Sublist.filter _ (List.take_sublist n L)).length_le
    simp only [decide_true, if_true, hl]
    rw [if_neg hne]
  · have : ¬ (tagOf x = t) := fun e' => e e'.symm
    simp only [e, this, if_false, decide_false, Bool.false_eq_true]
    exact hget t

/-! ### allocating an item -/

/-- a new object with no parent and no children -/
structure AllocRel (h h' : Heap) (x : Id) (n : Node) : Prop where
  eq : h' = (h.alloc n).1
  id : x = h.next
  par : n.parent = none
  items : n.items = []
  fams : n.fams = none ∨ n.fams = some []

theorem AllocRel.wf {h h' : Heap} {x : Id} {n : Node} (A : AllocRel h h' x n) (W : WF h) : WF h' := by
  obtain ⟨rfl, rfl, h1, h2, h3⟩ := A
  have hk : ∀ i, (h.alloc n).1.kids i = h.kids i := by
    intro i
    simp only [Heap.kids, Heap.alloc]
    split
    · next e => subst e; rw [h2]; exact ((W.fresh _ (Nat.le_refl _)).1).symm
    · rfl
  have hpar : ∀ i, ((h.alloc n).1.node i).parent = (h.node i).parent := by
    intro i
    simp only [Heap.alloc]
    split
    · next e => subst e; rw [h1]; exact ((W.fresh _ (Nat.le_refl _)).2).symm
    · rfl
  have hne : ∀ i, i ≠ h.next → (h.alloc n).1.node i = h.node i := by intro i e; simp [Heap.alloc, e]
  have h0 : h.kids h.next = [] := (W.fresh _ (Nat.le_refl _)).1
  refine W.update h.next (by simp [Heap.alloc]) ?_ (fun i _ => hk i) (fun i e _ => by rw [hne i e]) (fun i F e h4 h5 => ?_)
    (fun i e _ => by rw [hne i e]) (fun i _ c hc => ?_) (fun i _ c hc => ?_) ?_
  · intro y hy
    have hy : h.next + 1 ≤ y := hy
    rw [hk, hpar]
    exact W.fresh y (by omega)
  · rw [hne i e] at h5; exact W.fams_nil i F h4 h5
  · have := W.kids_lt i c hc
    simp only [Heap.tag]; rw [hne c (by omega)]
  · rw [hpar]; exact PEq.refl _
  · constructor
    · intro c hc; rw [hk, h0] at hc; simp at hc
    · rw [hk, h0]; simp
    · intro c hc; rw [hk, h0] at hc; simp at hc
    · intro hc; rw [hk, h0] at hc; simp at hc
    · intro hc; rw [hk, h0] at hc; simp at hc
    · intro F _ hF
      simp only [Heap.alloc, if_true] at hF
      rcases h3 with h3 | h3
      · rw [h3] at hF; simp at hF
      · rw [h3] at hF; simpa using hF.symm

theorem AllocRel.frame {h h' : Heap} {x : Id} {n : Node} (A : AllocRel h h' x n) : Unchanged h h' := by
  obtain ⟨rfl, rfl, h1, h2, h3⟩ := A
  have hne : ∀ i, i < h.next → (h.alloc n).1.node i = h.node i := by intro i e; simp [Heap.alloc]; intro; omega
  constructor
  · simp [Heap.alloc]
  all_goals intro i hi
  · simp only [Heap.tag, hne i hi]
  · rw [hne i hi]
  · simp only [Heap.flags, hne i hi]
  · rw [hne i hi]
  · intro _; simp only [Heap.kids, hne i hi]
  · intro _; simp only [Heap.par, hne i hi]

theorem AllocRel.noZombie {h h' : Heap} {x : Id} {n : Node} (A : AllocRel h h' x n) (W : WF h) (Z : NoZombie h) : NoZombie h' := by
  obtain ⟨rfl, rfl, h1, h2, h3⟩ := A
  intro c q hc
  simp only [Heap.par, Heap.alloc] at hc
  split at hc
  · rw [h1] at hc; simp at hc
  · have := Z c q hc
    have hq := W.lt_of_kids (p := q) (by intro e; rw [e] at this; simp at this)
    simp only [Heap.kids, Heap.alloc]
    rw [if_neg (by omega)]; exact this

end ITree
