import Verif.Proofs.Extend
/-
extend, extendleft, sort, reverse, clear.
-/
namespace ITree

/-- everything except the families attribute agrees -/
structure ObsEq (h h' : Heap) : Prop where
  next : h'.next = h.next
  tag : ∀ i, h'.tag i = h.tag i
  value : ∀ i, (h'.node i).value = (h.node i).value
  flags : ∀ i, h'.flags i = h.flags i
  link : ∀ i, (h'.node i).link = (h.node i).link
  kids : ∀ i, h'.kids i = h.kids i
  parent : ∀ i, (h'.node i).parent = (h.node i).parent

namespace ObsEq
variable {h h' : Heap} (H : ObsEq h h')
include H
theorem par (i) : h'.par i = h.par i := by simp only [Heap.par, H.parent]
theorem snap (n x) : h'.snap n x = h.snap n x := by
  induction n generalizing x with
  | zero =>
    have a := H.tag x; have b := H.flags x
    simp only [Heap.tag, Heap.flags] at a b
    simp only [Heap.snap, a, b, H.value, H.link]
  | succ n ih =>
    have a := H.tag x; have b := H.flags x; have c := H.kids x
    simp only [Heap.tag, Heap.flags, Heap.kids] at a b c
    have : h'.snap n = h.snap n := funext ih
    simp only [Heap.snap, a, b, c, H.value, H.link, this]
theorem tree (x) : h'.tree x = h.tree x := by simp only [Heap.tree, H.next, H.snap]
theorem below {x y} : Below h' x y ↔ Below h x y := Below.congr H.kids
theorem forest (F : Forest h) : Forest h' := F.sub fun q c hc => by rwa [H.kids] at hc
theorem noZombie (Z : NoZombie h) : NoZombie h' := fun c p hc => by rw [H.kids]; rw [H.par] at hc; exact Z c p hc
theorem noCover (N : NoCover h) : NoCover h' := fun y => by
  have := N y; simp only [coverOf, H.link] at this ⊢; exact this
theorem frame (K P) : Frame h h' K P :=
  ⟨Nat.le_of_eq H.next.symm, fun i _ => H.tag i, fun i _ => H.value i, fun i _ => H.flags i, fun i _ => H.link i, fun i _ _ => H.kids i,
    fun i _ _ => H.par i⟩
end ObsEq

theorem resetFams_obs {h : Heap} (p : Id) (F s) : ObsEq h (h.modify p fun n => { n with fams := F, stale := s }) where
  next := rfl
  tag i := by simp only [Heap.tag, node_modify]; split <;> rfl
  value i := by simp only [node_modify]; split <;> rfl
  flags i := by simp only [Heap.flags, node_modify]; split <;> rfl
  link i := by simp only [node_modify]; split <;> rfl
  kids i := by simp only [Heap.kids, node_modify]; split <;> rfl
  parent i := by simp only [node_modify]; split <;> rfl

theorem resetFams_wf {h : Heap} (W : WF h) (p : Id) (hk : h.kids p = []) (s) : WF (h.modify p fun n => { n with fams := some [], stale := s }) := by
  have O := resetFams_obs (h := h) p (some []) s
  refine W.update p (Nat.le_of_eq O.next.symm) ?_ (fun i _ => O.kids i) (fun i e _ => by simp [e]) ?_ (fun i e _ => by simp [e])
    (fun i _ c _ => O.tag c) (fun i _ c _ => by rw [O.parent]; exact PEq.refl _) ?_
  · intro y hy; rw [O.kids, O.parent]; exact W.fresh y hy
  · intro i F e h1 h2
    simp only [node_modify, if_neg e] at h2
    exact W.fams_nil i F h1 h2
  · constructor
    · intro c hc; rw [O.kids, hk] at hc; simp at hc
    · rw [O.kids, hk]; simp
    · intro c hc; rw [O.kids, hk] at hc; simp at hc
    · intro hc; rw [O.kids, hk] at hc; simp at hc
    · intro hc; rw [O.kids, hk] at hc; simp at hc
    · intro F _ hF; simp only [node_modify, if_true] at hF; simpa using hF.symm

theorem ExtendSpec.ofObs {h h1 h' : Heap} {p as xs} (O : ObsEq h h1) (S : ExtendSpec h1 h' p as xs) : ExtendSpec h h' p as xs where
  wf := S.wf
  frame := (O.frame _ _).trans S.frame
  kids := by rw [S.kids, O.kids]
  len := S.len
  par := S.par
  each j a x ha hx := by
    have := S.each j a x ha hx
    cases a with
    | val v => simp only [ExtArg, O.next] at this ⊢; exact this
    | item i =>
      simp only [ExtArg, O.next, O.par, O.tree, O.below] at this ⊢; exact this
  nz Z := S.nz (O.noZombie Z)
  forest F hb := S.forest (O.forest F) fun i hi hn => by rw [O.par] at hn; rw [O.below]; exact hb i hi hn
  nocov N := S.nocov (O.noCover N)
  stale := S.stale

theorem iterExtend_spec {h : Heap} (W : WF h) {p : Id} (hp : p < h.next) (as : List Arg) (ha : ∀ i, Arg.item i ∈ as → i < h.next) :
    ∃ xs, ExtendSpec h (iterExtend h p as) p as xs := by
  unfold iterExtend
  dsimp only
  split
  · next hk =>
    have O := resetFams_obs (h := h) p (some []) none
    obtain ⟨xs, S⟩ := extendLoop_spec (p := p) as _ (h.kids p).length (resetFams_wf W p hk none) (by rw [O.next]; exact hp)
      (by simp) (fun i hi => by rw [O.next]; exact ha i hi)
    exact ⟨xs, S.ofObs O⟩
  · next hk => exact extendLoop_spec as h _ W hp (W.stale_none p hk) ha

/-! ### emptying an item -/

/-- `p._items` is emptied; `orphans` lose their parent -/
theorem orphan_node (l : List Id) : ∀ (h : Heap) (i : Id), (orphan h l).node i = if i ∈ l then { h.node i with parent := none } else h.node i := by
  induction l with
  | nil => intro h i; simp [orphan]
  | cons a l ih =>
    intro h i
    simp only [orphan, ih, node_setParent, List.mem_cons]
    by_cases h1 : i = a <;> by_cases h2 : i ∈ l <;> simp [h1, h2]

theorem orphan_next (l : List Id) : ∀ (h : Heap), (orphan h l).next = h.next := by
  induction l with
  | nil => intro h; rfl
  | cons a l ih => intro h; simp [orphan, ih]

/-- the heap in which `extendleft` re-adds everything -/
def emptied (h : Heap) (p : Id) : Heap := (orphan h (h.kids p)).modify p fun n => { n with items := [], fams := some [] }

theorem emptied_facts (h : Heap) (p : Id) : (emptied h p).next = h.next ∧ (∀ i, (emptied h p).tag i = h.tag i) ∧
    (∀ i, ((emptied h p).node i).value = (h.node i).value) ∧ (∀ i, (emptied h p).flags i = h.flags i) ∧
    (∀ i, ((emptied h p).node i).link = (h.node i).link) ∧ (∀ i, (emptied h p).kids i = if i = p then [] else h.kids i) ∧
    (∀ i, ((emptied h p).node i).parent = if i ∈ h.kids p then none else (h.node i).parent) ∧
    (∀ i, i ≠ p → ((emptied h p).node i).fams = (h.node i).fams ∧ ((emptied h p).node i).stale = (h.node i).stale) ∧
    ((emptied h p).node p).fams = some [] := by
  unfold emptied
  refine ⟨by simp [orphan_next], ?_, ?_, ?_, ?_, ?_, ?_, ?_, ?_⟩
  · intro i; simp only [Heap.tag, node_modify, orphan_node]; split <;> split <;> rfl
  · intro i; simp only [node_modify, orphan_node]; split <;> split <;> rfl
  · intro i; simp only [Heap.flags, node_modify, orphan_node]; split <;> split <;> rfl
  · intro i; simp only [node_modify, orphan_node]; split <;> split <;> rfl
  · intro i; simp only [Heap.kids, node_modify, orphan_node]; split
    · rfl
    · split <;> rfl
  · intro i; simp only [node_modify, orphan_node]; split <;> split <;> rfl
  · intro i e; simp only [node_modify, orphan_node, if_neg e]; split <;> exact ⟨rfl, rfl⟩
  · simp

theorem emptied_wf {h : Heap} (W : WF h) (p : Id) : WF (emptied h p) := by
  obtain ⟨f1, f2, f3, f4, f5, f6, f7, f8, f9⟩ := emptied_facts h p
  refine W.update p (Nat.le_of_eq f1.symm) ?_ (fun i e => by rw [f6, if_neg e]) (fun i e _ => (f8 i e).1) ?_ (fun i e _ => (f8 i e).2)
    (fun i _ c _ => f2 c) ?_ ?_
  · intro y hy
    rw [f1] at hy
    rw [f6, f7]
    obtain ⟨a, b⟩ := W.fresh y hy
    refine ⟨by split; rfl; exact a, by split; rfl; exact b⟩
  · intro i F e h1 h2; rw [(f8 i e).1] at h2; exact W.fams_nil i F h1 h2
  · intro i e c hc
    rw [f7, if_neg (fun hm => e (W.parent_unique hc hm))]; exact PEq.refl _
  · have hk : (emptied h p).kids p = [] := by rw [f6, if_pos rfl]
    constructor
    · intro c hc; rw [hk] at hc; simp at hc
    · rw [hk]; simp
    · intro c hc; rw [hk] at hc; simp at hc
    · intro hc; exact (hc hk).elim
    · intro hc; exact (hc hk).elim
    · intro F _ hF; rw [f9] at hF; simpa using hF.symm

theorem emptied_forest {h : Heap} (F : Forest h) (p : Id) : Forest (emptied h p) := by
  refine F.sub fun q c hc => ?_
  rw [(emptied_facts h p).2.2.2.2.2.1] at hc
  split at hc
  · simp at hc
  · exact hc

theorem emptied_par (h : Heap) (p i : Id) : (emptied h p).par i = if i ∈ h.kids p then none else h.par i := by
  simp only [Heap.par, (emptied_facts h p).2.2.2.2.2.2.1]; split <;> rfl

theorem emptied_noZombie {h : Heap} (Z : NoZombie h) (p : Id) : NoZombie (emptied h p) := by
  intro c q hc
  rw [emptied_par] at hc
  split at hc
  · simp at hc
  · next hn =>
    have := Z c q hc
    rw [(emptied_facts h p).2.2.2.2.2.1]
    split
    · next e => subst e; exact (hn this).elim
    · exact this

theorem emptied_noCover {h : Heap} (N : NoCover h) (p : Id) : NoCover (emptied h p) := fun y => by
  have := N y; simp only [coverOf, (emptied_facts h p).2.2.2.2.1] at this ⊢; exact this

theorem below_emptied {h : Heap} {p x y : Id} (b : Below (emptied h p) x y) : Below h x y := by
  induction b with
  | refl => exact Below.refl
  | step _ hc ih =>
    rw [(emptied_facts h p).2.2.2.2.2.1] at hc
    split at hc
    · simp at hc
    · exact ih.step hc

/-- `extendleft`: the new items in front, the old children behind them, provided none of the new items is already a child -/
structure ExtendLeftSpec (h h' : Heap) (p : Id) (as : List Arg) (xs : List Id) : Prop where
  wf : WF h'
  frame : Frame h h' (· = p) (fun i => Arg.item i ∈ as)
  kids : h'.kids p = xs ++ h.kids p
  len : xs.length = as.length
  par : ∀ x ∈ xs, h'.par x = some p
  each : ∀ j a x, as[j]? = some a → xs[j]? = some x → ExtArg (emptied h p) h' p (as.take j) a x
  nz : NoZombie h → NoZombie h'
  forest : Forest h → (∀ i, Arg.item i ∈ as → h.par i = none → ¬ Below h i p) → Forest h'
  nocov : NoCover h → NoCover h'

theorem extendLeft_spec {h h' : Heap} (W : WF h) {p : Id} (hp : p < h.next) {as : List Arg} (ha : ∀ i, Arg.item i ∈ as → i < h.next)
    (hd : ∀ i, Arg.item i ∈ as → i ∉ h.kids p) (hr : extendLeft h p as = (h', .ok ())) : ∃ xs, ExtendLeftSpec h h' p as xs := by
  unfold extendLeft at hr
  split at hr
  · simp at hr
  · have hr : iterExtend (emptied h p) p (as ++ (h.kids p).map Arg.item) = h' := by
      simpa [emptied] using hr
    obtain ⟨f1, f2, f3, f4, f5, f6, f7, f8, f9⟩ := emptied_facts h p
    have hmem : ∀ i, Arg.item i ∈ as ++ (h.kids p).map Arg.item ↔ Arg.item i ∈ as ∨ i ∈ h.kids p := by
      intro i; simp
    obtain ⟨zs, S⟩ := iterExtend_spec (emptied_wf W p) (p := p) (by rw [f1]; exact hp) (as ++ (h.kids p).map Arg.item) (fun i hi => by
      rw [f1]
      rcases (hmem i).1 hi with h1 | h1
      · exact ha i h1
      · exact W.kids_lt p i h1)
    rw [hr] at S
    have hlen : zs.length = as.length + (h.kids p).length := by rw [S.len]; simp
    have hold : zs.drop as.length = h.kids p := by
      apply List.ext_getElem?
      intro j
      rw [List.getElem?_drop]
      by_cases hj : j < (h.kids p).length
      · have h1 : (as ++ (h.kids p).map Arg.item)[as.length + j]? = some (Arg.item (h.kids p)[j]) := by
          rw [List.getElem?_append_right (by omega)]; simp [hj]
        have hz : zs[as.length + j]? = some (zs[as.length + j]'(by omega)) := List.getElem?_eq_getElem (by omega)
        have := (S.each _ _ _ h1 hz).1
        rw [hz, List.getElem?_eq_getElem hj]
        congr 1
        apply this
        refine ⟨?_, ?_⟩
        · rw [emptied_par, if_pos (List.getElem_mem hj)]
        · rw [List.take_append, List.mem_append]
          rintro (h2 | h2)
          · exact hd _ (List.mem_of_mem_take h2) (List.getElem_mem hj)
          · have e : as.length + j - as.length = j := by omega
            rw [e, ← List.map_take, List.mem_map] at h2
            obtain ⟨c, hc, e⟩ := h2
            cases e
            have := idxOf_lt_of_mem_take hc
            rw [(W.kids_nodup p).idxOf_getElem j hj] at this
            omega
      · rw [List.getElem?_eq_none (by omega), List.getElem?_eq_none (by omega)]
    have hzs : zs = zs.take as.length ++ h.kids p := by rw [← hold]; simp
    have hk : h'.kids p = zs.take as.length ++ h.kids p := by rw [S.kids, f6, if_pos rfl, List.nil_append]; exact hzs
    refine ⟨zs.take as.length, S.wf, ?_, hk, by simp; omega, ?_, ?_, fun Z => S.nz (emptied_noZombie Z p), ?_, fun N => S.nocov (emptied_noCover N p)⟩
    · constructor
      · have := S.frame.next; omega
      · intro i hi; rw [S.frame.tag i (by omega), f2]
      · intro i hi; rw [S.frame.value i (by omega), f3]
      · intro i hi; rw [S.frame.flags i (by omega), f4]
      · intro i hi; rw [S.frame.link i (by omega), f5]
      · intro i hi e; rw [S.frame.kids i (by omega) e, f6, if_neg e]
      · intro i hi e
        by_cases hm : i ∈ h.kids p
        · have a : h'.par i = some p := by
            apply S.par; rw [hzs]; simp [hm]
          obtain ⟨r, r1, r2, _⟩ := W.kid_parent p i hm
          rw [a]; simp [Heap.par, r1, r2]
        · rw [S.frame.par i (by omega) (by rw [hmem]; rintro (h1 | h1); exact e h1; exact hm h1), emptied_par, if_neg hm]
    · intro x hx; exact S.par x (List.mem_of_mem_take hx)
    · intro j a x hj hx
      have hjl : j < as.length := (List.getElem?_eq_some_iff.1 hj).1
      have h1 : (as ++ (h.kids p).map Arg.item)[j]? = some a := by rw [List.getElem?_append_left hjl]; exact hj
      have h2 : zs[j]? = some x := by rw [List.getElem?_take] at hx; simpa [hjl] using hx
      have := S.each j a x h1 h2
      rwa [List.take_append_of_le_length (by omega)] at this
    · intro F hb
      refine S.forest (emptied_forest F p) fun i hi hn => ?_
      intro b
      rcases (hmem i).1 hi with h1 | h1
      · rw [emptied_par, if_neg (hd i h1)] at hn
        exact hb i h1 hn (below_emptied b)
      · exact F.irrefl h1 (below_emptied b)

/-! ### reverse -/

/-- only the order of the children of `p` changed -/
structure PermRel (h h' : Heap) (p : Id) (L : List Id) : Prop where
  next : h'.next = h.next
  tag : ∀ i, h'.tag i = h.tag i
  value : ∀ i, (h'.node i).value = (h.node i).value
  flags : ∀ i, h'.flags i = h.flags i
  link : ∀ i, (h'.node i).link = (h.node i).link
  kids_p : h'.kids p = L
  perm : L.Perm (h.kids p)
  kids_o : ∀ i, i ≠ p → h'.kids i = h.kids i
  parent : ∀ i, (h'.node i).parent = (h.node i).parent
  stale : ∀ i, (h'.node i).stale = (h.node i).stale
  fams_p : h.kids p ≠ [] → ∃ F, (h'.node p).fams = some F ∧ FamOK h' p F
  fams_nil : ∀ F, h.kids p = [] → (h'.node p).fams = some F → F = []
  fams_o : ∀ i, i ≠ p → (h'.node i).fams = (h.node i).fams

theorem PermRel.wf {h h' : Heap} {p : Id} {L} (A : PermRel h h' p L) (W : WF h) : WF h' := by
  have hk : ∀ i c, c ∈ h'.kids i ↔ c ∈ h.kids i := by
    intro i c
    by_cases e : i = p
    · subst e; rw [A.kids_p]; exact A.perm.mem_iff
    · rw [A.kids_o i e]
  have hnil : h'.kids p = [] ↔ h.kids p = [] := by
    rw [A.kids_p]; constructor
    · intro e; have := A.perm; rw [e] at this; exact this.nil_eq.symm
    · intro e; have := A.perm; rw [e] at this; exact this.eq_nil
  refine W.update p (Nat.le_of_eq A.next.symm) ?_ A.kids_o (fun i e _ => A.fams_o i e) ?_ (fun i _ _ => A.stale i) (fun i _ c _ => A.tag c)
    (fun i _ c _ => by rw [A.parent]; exact PEq.refl _) ?_
  · intro y hy
    rw [A.next] at hy
    obtain ⟨a, b⟩ := W.fresh y hy
    rw [A.parent]
    refine ⟨?_, b⟩
    by_cases e : y = p
    · subst e; exact hnil.2 a
    · rw [A.kids_o y e]; exact a
  · intro i F e h1 h2; rw [A.fams_o i e] at h2; exact W.fams_nil i F h1 h2
  · constructor
    · intro c hc; rw [A.next]; exact W.kids_lt p c ((hk p c).1 hc)
    · rw [A.kids_p]; exact A.perm.nodup_iff.2 (W.kids_nodup p)
    · intro c hc; rw [A.parent]; exact W.kid_parent p c ((hk p c).1 hc)
    · intro hne; rw [A.stale]; exact W.stale_none p (fun e => hne (hnil.2 e))
    · intro hne; exact A.fams_p (fun e => hne (hnil.2 e))
    · intro F h1 h2; exact A.fams_nil F (hnil.1 h1) h2

theorem PermRel.frame {h h' : Heap} {p : Id} {L} (A : PermRel h h' p L) : Frame h h' (· = p) (fun _ => False) :=
  ⟨Nat.le_of_eq A.next.symm, fun i _ => A.tag i, fun i _ => A.value i, fun i _ => A.flags i, fun i _ => A.link i, fun i _ e => A.kids_o i e,
    fun i _ _ => by simp only [Heap.par, A.parent]⟩

theorem PermRel.mem {h h' : Heap} {p : Id} {L} (A : PermRel h h' p L) (i c) : c ∈ h'.kids i ↔ c ∈ h.kids i := by
  by_cases e : i = p
  · subst e; rw [A.kids_p]; exact A.perm.mem_iff
  · rw [A.kids_o i e]
theorem PermRel.noZombie {h h' : Heap} {p : Id} {L} (A : PermRel h h' p L) (Z : NoZombie h) : NoZombie h' := fun c q hc => by
  rw [A.mem]; simp only [Heap.par, A.parent] at hc; exact Z c q hc
theorem PermRel.forest {h h' : Heap} {p : Id} {L} (A : PermRel h h' p L) (F : Forest h) : Forest h' :=
  F.sub fun q c hc => (A.mem q c).1 hc
theorem PermRel.noCover {h h' : Heap} {p : Id} {L} (A : PermRel h h' p L) (N : NoCover h) : NoCover h' := fun y => by
  have := N y; simp only [coverOf, A.link] at this ⊢; exact this

theorem Fams.get?_map_rev (F : Fams) (t : Tag) : Fams.get? (F.map fun e => (e.1, e.2.reverse)) t = (F.get? t).map List.reverse := by
  induction F with
  | nil => rfl
  | cons e r ih =>
    simp only [Fams.get?] at ih
    obtain ⟨a, b⟩ := e
    simp only [Fams.get?, List.map_cons, List.lookup_cons]
    cases t == a
    · exact ih
    · rfl

theorem reverse_spec {h h' : Heap} (W : WF h) {p : Id} (hr : reverse h p = (h', .ok ())) :
    h' = h ∨ PermRel h h' p (h.kids p).reverse := by
  unfold reverse at hr
  split at hr
  · simp at hr
  · simp at hr; left; exact hr.symm
  · right
    dsimp only at hr
    split at hr
    · simp at hr
    · next F hF =>
      simp only [Prod.mk.injEq, and_true] at hr
      subst hr
      have hkids : ∀ i, ((h.setItems p (h.kids p).reverse).setFams p (F.map fun e => (e.1, e.2.reverse))).kids i =
        if i = p then (h.kids p).reverse else h.kids i := by intro i; simp
      constructor
      · rfl
      · intro i; simp
      · intro i; simp
      · intro i; simp
      · intro i; simp
      · simp
      · exact List.reverse_perm _
      · intro i e; simp [e]
      · intro i; simp
      · intro i; simp
      · intro hne
        obtain ⟨F', h1, h2⟩ := W.fams_ok p hne
        rw [hF] at h1; cases h1
        refine ⟨F.map fun e => (e.1, e.2.reverse), by simp, ?_, fun t => ?_⟩
        · rw [List.map_map]; exact h2.keys
        · rw [Fams.get?_map_rev, h2.get]
          have : famView ((h.setItems p (h.kids p).reverse).setFams p (F.map fun e => (e.1, e.2.reverse))) p t = (famView h p t).reverse := by
            simp [famView]
          rw [this]
          by_cases e : famView h p t = [] <;> simp [e]
      · intro F' hnil hF'
        have := W.fams_nil p F hnil hF
        subst this
        simpa using hF'.symm
      · intro i e; simp [e]

end ITree
