import Verif.Proofs.AllFresh
import Verif.Proofs.History
import Verif.Proofs.Init
/-
Stored family positions stay true while trees are only built (constructor, append, extend, copy).
-/
namespace ITree

theorem AllFresh.copy {h : Heap} (F : AllFresh h) (W : WF h) (x : Id) : AllFresh (copyItem h x).1 := by
  have A := copyNode_alloc h (h.tree x)
  simp only [copyItem, build]
  refine buildKids_fresh _ _ _ (A.wf W) ?_ (F.alloc W _ rfl rfl)
  simp [Heap.alloc]

theorem AllFresh.pick {h : Heap} (F : AllFresh h) (W : WF h) (a : Arg) : AllFresh (extPick h a).1 := by
  unfold extPick
  split
  · split
    · exact F.copy W _
    · exact F
  · exact F.alloc W _ rfl rfl

theorem AllFresh.extendOne {h : Heap} (F : AllFresh h) (W : WF h) {p : Id} (hp : p < h.next) (hs : (h.node p).stale = none) (idx : Nat) (a : Arg)
    (ha : ∀ i, a = .item i → i < h.next) : AllFresh (extendOne h p idx a) := by
  have P := extPick_spec W a ha
  have A := extendOne_attach W hp hs idx a ha
  have hk : (extPick h a).1.kids p = h.kids p := P.unchanged.kids p hp (fun h => h)
  have hres : ITree.extendOne h p idx a = (let h1 := (extPick h a).1; let x := (extPick h a).2
      let F := (h1.node p).fams.getD []
      ((h1.setFams p (F.set (h1.tag x) ((F.get? (h1.tag x)).getD [] ++ [x]))).setParent x (some ⟨p, idx, (famAppend F (h1.tag x) x).2, false⟩)).setItems p
        (h1.kids p ++ [x])) := by
    unfold ITree.extendOne
    dsimp only
    rw [famAppend_fst]
    simp only [kids_setParent, kids_setFams]
    cases a <;> rfl
  rw [← hk] at A
  refine (F.pick W a).attach P.wf A P.par ?_ ?_
  · intro i hi
    rw [hres]
    simp [hi]
  · rw [hres]
    have W1 := P.wf
    generalize (extPick h a).1 = h1 at *
    have hF : ∃ F, (h1.node p).fams.getD [] = F ∧ FamOK h1 p F := by
      by_cases e : h1.kids p = []
      · refine ⟨[], ?_, by simp, fun t => by simp [Fams.get?, famView, e]⟩
        cases hf : (h1.node p).fams with
        | none => rfl
        | some F => rw [W1.fams_nil p F e hf]; rfl
      · obtain ⟨F, h1, h2⟩ := W1.fams_ok p e; exact ⟨F, by rw [h1]; rfl, h2⟩
    obtain ⟨G, hG, hO⟩ := hF
    dsimp only
    rw [hG, famAppend_snd hO]
    exact ⟨_, by simp; rfl, rfl⟩

theorem AllFresh.extendLoop {p : Id} : ∀ (as : List Arg) {h : Heap} (idx : Nat), AllFresh h → WF h → p < h.next → (h.node p).stale = none → (∀ i, Arg.item i ∈ as → i < h.next) →
    AllFresh (extendLoop h p idx as)
  | [], h, idx, F, W, hp, hs, ha => F
  | a :: as, h, idx, F, W, hp, hs, ha => by
    have P := extPick_spec W a (fun i e => ha i (by simp [e]))
    have A := extendOne_attach W hp hs idx a (fun i e => ha i (by simp [e]))
    have F1 := F.extendOne W hp hs idx a (fun i e => ha i (by simp [e]))
    have hk : (extPick h a).1.kids p = h.kids p := P.unchanged.kids p hp (fun h => h)
    have hn1 := P.unchanged.next
    have hn2 := A.next
    simp only [ITree.extendLoop]
    exact AllFresh.extendLoop as (idx + 1) F1 (A.wf P.wf (by omega) P.lt (by rw [hk]) P.par) (by omega) A.stale_p fun i hi => by have := ha i (by simp [hi]); omega

theorem AllFresh.iterExtend {h : Heap} (F : AllFresh h) (W : WF h) {p : Id} (hp : p < h.next) (as : List Arg) (ha : ∀ i, Arg.item i ∈ as → i < h.next) : AllFresh (iterExtend h p as) := by
  simp only [ITree.iterExtend]
  split
  · next hk =>
    have O := resetFams_obs (h := h) p (some []) none
    refine AllFresh.extendLoop as _ (F.obs O) (resetFams_wf W p hk none) (by rw [O.next]; exact hp) (by simp) (by rw [O.next]; exact ha)
  · next hk => exact AllFresh.extendLoop as _ F W hp (W.stale_none p hk) ha

theorem AllFresh.emptied {h : Heap} (F : AllFresh h) (W : WF h) (p : Id) : AllFresh (emptied h p) := by
  obtain ⟨f1, f2, f3, f4, f5, f6, f7, f8, f9⟩ := emptied_facts h p
  intro q y hy
  rw [f6] at hy
  split at hy
  · simp at hy
  · next e =>
    obtain ⟨r, e1, e2, e3⟩ := F q y hy
    refine ⟨r, ?_, e2, ?_⟩
    · rw [f7, if_neg (fun hm => e (W.parent_unique hy hm))]; exact e1
    · simpa only [famView, f6, if_neg e, f2] using e3

theorem AllFresh.extendLeft {h : Heap} (F : AllFresh h) (W : WF h) {p : Id} (hp : p < h.next) (as : List Arg) (ha : ∀ i, Arg.item i ∈ as → i < h.next) : AllFresh (extendLeft h p as).1 := by
  unfold ITree.extendLeft
  split
  · exact F
  · refine (F.emptied W p).iterExtend (emptied_wf W p) (by rw [(emptied_facts h p).1]; exact hp) _ fun i hi => ?_
    rw [(emptied_facts h p).1]
    rcases List.mem_append.1 hi with h1 | h1
    · exact ha i h1
    · obtain ⟨j, hj, e⟩ := List.mem_map.1 h1
      cases e
      exact W.kids_lt p i hj

theorem AllFresh.extendTree {h : Heap} (F : AllFresh h) (W : WF h) {p : Id} (hp : p < h.next) (u : Id) : AllFresh (extendTree h p u).1 := by
  have hk : ∀ {g : Heap} {v i : Id}, WF g → Arg.item i ∈ (g.kids v).map Arg.item → i < g.next := by
    intro g v i Wg hi
    obtain ⟨j, hj, e⟩ := List.mem_map.1 hi
    cases e
    exact Wg.kids_lt v i hj
  unfold ITree.extendTree
  dsimp only
  split
  · exact F
  · split
    · have C := copyItem_spec W u
      exact (F.copy W u).iterExtend C.wf (Nat.lt_of_lt_of_le hp C.unchanged.next) _ fun i hi => hk C.wf hi
    · exact F.iterExtend W hp _ fun i hi => hk W hi

theorem AllFresh.initLoop {p : Id} {f : Flags} : ∀ (as : List Arg) {h : Heap} (idx : Nat), AllFresh h → WF h → p < h.next → (h.node p).stale = none → (∀ i, Arg.item i ∈ as → i < h.next) →
    AllFresh (initLoop h p idx f as)
  | [], h, idx, F, W, hp, hs, ha => F
  | a :: as, h, idx, F, W, hp, hs, ha => by
    have P := extPick_spec W a (fun i e => ha i (by simp [e]))
    have A := extendOne_attach W hp hs idx a (fun i e => ha i (by simp [e]))
    have F1 := F.extendOne W hp hs idx a (fun i e => ha i (by simp [e]))
    have hk : (extPick h a).1.kids p = h.kids p := P.unchanged.kids p hp (fun h => h)
    have hn1 := P.unchanged.next
    have hn2 := A.next
    have W2 := A.wf P.wf (by omega) P.lt (by rw [hk]) P.par
    have fin : ∀ h2 : Heap, DataEq (ITree.extendOne h p idx a) h2 → AllFresh (ITree.initLoop h2 p (idx + 1) f as) := by
      intro h2 D
      have := D.str.next
      exact AllFresh.initLoop as (idx + 1) (F1.structEq D.str) (D.str.wf W2) (by omega) (by rw [D.str.stale]; exact A.stale_p) fun i hi => by have := ha i (by simp [hi]); omega
    simp only [ITree.initLoop, initStep]
    split
    · split
      · exact fin _ (DataEq.refl _)
      · exact fin _ (setFlagsInit_data _ _ _)
    · exact fin _ (DataEq.refl _)

theorem AllFresh.newItem {h : Heap} (F : AllFresh h) (W : WF h) (t v sub f) (ha : ∀ i, Arg.item i ∈ sub → i < h.next) : AllFresh (newItem h t v sub f).1 := by
  have A : AllocRel h (h.alloc { tag := t, value := v, flags := f }).1 (h.alloc { tag := t, value := v, flags := f }).2 { tag := t, value := v, flags := f } :=
    ⟨rfl, rfl, rfl, rfl, Or.inl rfl⟩
  have F1 : AllFresh (h.alloc { tag := t, value := v, flags := f }).1 := F.alloc W _ rfl rfl
  unfold ITree.newItem
  split
  · exact F1
  · have hk0 : (h.alloc { tag := t, value := v, flags := f }).1.kids h.next = [] := by simp [Heap.kids, Heap.alloc]
    have O := resetFams_obs (h := (h.alloc { tag := t, value := v, flags := f }).1) h.next (some []) none
    have hsame : ((h.alloc { tag := t, value := v, flags := f }).1.modify h.next fun n => { n with fams := some [] }) =
        ((h.alloc { tag := t, value := v, flags := f }).1.modify h.next fun n => { n with fams := some [], stale := none }) := by
      simp only [Heap.modify, Heap.mk.injEq, and_true]
      funext j
      by_cases e : j = h.next
      · subst e; simp [Heap.alloc]
      · simp [e]
    have hid : (h.alloc { tag := t, value := v, flags := f }).2 = h.next := rfl
    dsimp only
    rw [hid, hsame]
    refine AllFresh.initLoop _ 0 (F1.obs O) (resetFams_wf (A.wf W) h.next hk0 none) ?_ ?_ ?_
    · simp [Heap.alloc]
    · simp
    · intro i hi; have := ha i hi
      simp [Heap.alloc]; omega

theorem AllFresh.idx {h : Heap} (F : AllFresh h) (W : WF h) (Z : NoZombie h) (x : Id) : AllFresh (h.idx x).1 := by
  cases hr : (h.node x).parent with
  | none => unfold Heap.idx; simp only [hr]; exact F
  | some r =>
    have hx : x ∈ h.kids r.pid := Z x r.pid (by simp [Heap.par, hr])
    obtain ⟨r', e1, e2, e3, e4, e5⟩ := W.kid_parent _ x hx
    rw [hr] at e1
    obtain rfl : r = r' := by simpa using e1
    have H := idx_ceq h x
    have e : (h.idx x).1 = (cachedPos .abs h x r (h.kids r.pid)).1 := by unfold Heap.idx; simp only [hr]
    intro q y hy
    rw [H.kids] at hy
    rw [H.famView, H.tag, e]
    exact (cachedPos_fresh (c := .abs) hr e4).1 .fam _ y (fun _ he => by cases he) (F q y hy)

theorem AllFresh.tagIdx {h : Heap} (F : AllFresh h) (W : WF h) (Z : NoZombie h) (x : Id) : (h.tagIdx x).1 = h := by
  cases hr : (h.node x).parent with
  | none => unfold Heap.tagIdx; simp only [hr]
  | some r =>
    have hx : x ∈ h.kids r.pid := Z x r.pid (by simp [Heap.par, hr])
    obtain ⟨p, m, -, -, e⟩ := tagIdx_of_fresh W ⟨r.pid, hx, F _ x hx⟩
    rw [e]

/-- the calls that build trees (at the end of what exists, or by `extendleft`), read positions, or change values and flags: no removal, no reordering, no insertion in the middle -/
def Call.builds : Call → Bool
  | .new .. | .newLink .. | .append .. | .extend .. | .extendTree .. | .extendLeft .. | .copy .. => true
  | .setTreeReadOnly .. | .unsetTreeReadOnly .. | .setValueReadOnly .. | .unsetValueReadOnly .. => true
  | .setValue .. | .setKeyValue .. | .delValue .. | .delKeyValue .. | .readIdx .. | .readTagIdx .. => true
  | _ => false

theorem step_fresh {ms : ModelSet} {h : Heap} (C : Core h) (Z : NoZombie h) (F : AllFresh h) (c : Call) (ha : Allowed h c) (hc : c.builds = true) : AllFresh (step ms h c).1 := by
  have W := C.wf
  cases c with
  | new t v s f => exact F.newItem W t v s f ha.1
  | newLink t v s f file path =>
    have := F.newItem W t v s f ha.1
    show AllFresh (newLink h t v s f file path).1
    unfold newLink
    exact this.structEq (DataOnly.structEq (f := fun n => { n with flags := n.flags ||| Flags.linkRoot, link := some { file := file, path := path } })
      ⟨fun _ => rfl, fun _ => rfl, fun _ => rfl, fun _ => rfl, fun _ => rfl⟩ _ _)
  | append p a =>
    show AllFresh (append h p a).1
    unfold append
    split
    · exact F
    · cases a with
      | item x =>
        simp only [prepItem]
        by_cases e : ((h.node x).parent).isSome = true
        · simp only [e, if_true]; exact F
        · simp only [e, Bool.false_eq_true, if_false]
          exact F.append1 W (by simpa using e)
      | val v =>
        have A : AllocRel h (h.alloc { tag := .noTag, value := v }).1 (h.alloc { tag := .noTag, value := v }).2 { tag := .noTag, value := v } := ⟨rfl, rfl, rfl, rfl, Or.inl rfl⟩
        simp only [prepItem]
        exact (F.alloc W _ rfl rfl).append1 (A.wf W) (by simp [Heap.alloc])
  | extend p as =>
    show AllFresh (extend h p as).1
    unfold extend
    split
    · exact F
    · exact F.iterExtend W ha.1 as fun i hi => (ha.2.1 _ hi i rfl).1
  | extendTree p u => exact F.extendTree W ha u
  | extendLeft p as => exact F.extendLeft W ha.1 as fun i hi => ((ha.2.1 _ hi).1 i rfl).1
  | copy x => exact F.copy W x
  | setTreeReadOnly x => exact F.structEq (setFlagsAll_data _ _ _).str
  | unsetTreeReadOnly x => exact F.structEq (unsetTreeReadOnly_data _ _).str
  | setValueReadOnly x => exact F.structEq (setFlags1_data _ _ _).str
  | unsetValueReadOnly x => exact F.structEq (unsetFlagsOp_data _ _ _).str
  | setValue x v => exact F.structEq (setValue_data _ _ _ _).str
  | setKeyValue x k v => exact F.structEq (setKeyValue_data _ _ _ _ _).str
  | delValue x => exact F.structEq (delValue_data _ _).str
  | delKeyValue x k => exact F.structEq (delKeyValue_data _ _ _).str
  | readIdx x => exact F.idx W Z x
  | readTagIdx x => show AllFresh (h.tagIdx x).1; rw [F.tagIdx W Z x]; exact F
  | _ => cases hc

end ITree
