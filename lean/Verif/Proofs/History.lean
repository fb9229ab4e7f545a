import Verif.Proofs.Steps3
import Verif.Spec.History
import Verif.Proofs.LoadKeeps2
/-
All reachable heaps are consistent.
-/
namespace ITree

theorem empty_kids (p : Id) : Heap.empty.kids p = [] := rfl
theorem empty_par (p : Id) : Heap.empty.par p = none := rfl

theorem core_empty : Core Heap.empty where
  wf := by
    refine ⟨fun _ _ => ⟨rfl, rfl⟩, ?_, fun _ => List.nodup_nil, ?_, fun _ _ => rfl, ?_, ?_⟩
    · intro p c hc; rw [empty_kids] at hc; simp at hc
    · intro p c hc; rw [empty_kids] at hc; simp at hc
    · intro p hp; exact (hp rfl).elim
    · intro p F _ hF
      have : (Heap.empty.node p).fams = none := rfl
      rw [this] at hF; simp at hF
  forest := ⟨fun x => ⟨_, fun y hy => by rw [empty_kids] at hy; simp at hy⟩⟩
  nocov := fun y => rfl

theorem nz_empty : NoZombie Heap.empty := by
  intro c p hc; rw [empty_par] at hc; simp at hc

/-! ### which exceptions come out of position searches -/

theorem scanFwd_kind (c : Cache) (x : Id) (l : List Id) : ∀ (h : Heap) (i : Nat) (e : Err), (scanFwd c h x l i).2 = .error e → crash e := by
  induction l with
  | nil => intro h i e he; simp [scanFwd] at he; subst he; simp [crash]
  | cons y ys ih =>
    intro h i e he
    unfold scanFwd at he
    split at he
    · simp at he; subst he; simp [crash]
    · split at he
      · simp at he; subst he; simp [crash]
      · dsimp only at he
        split at he
        · simp at he
        · exact ih _ _ _ he

theorem scanBwd_kind (c : Cache) (x : Id) (l : List Id) : ∀ (h : Heap) (i : Nat) (e : Err), (scanBwd c h x l i).2 = .error e → crash e := by
  induction l with
  | nil => intro h i e he; simp [scanBwd] at he; subst he; simp [crash]
  | cons y ys ih =>
    intro h i e he
    unfold scanBwd at he
    split at he
    · simp at he; subst he; simp [crash]
    · split at he
      · simp at he; subst he; simp [crash]
      · dsimp only at he
        split at he
        · simp at he
        · exact ih _ _ _ he

theorem cachedPos_kind {c : Cache} {h : Heap} {x : Id} {r : PRef} {l : List Id} {e : Err} (he : (cachedPos c h x r l).2 = .error e) : crash e := by
  unfold cachedPos at he
  dsimp only at he
  have slow : (match windowFind l x (max 0 (r.getC c - 20)).toNat (min (l.length : Int) (r.getC c + 20 + 1)).toNat with
    | some i =>
      if r.frozen then (h, .error .type)
      else (h.setParent x (some (r.setC c i)), .ok ((i : Int), false))
    | none =>
      ((if 2 * r.getC c < l.length then scanFwd c h x l 0 else scanBwd c h x l.reverse (l.length - 1)).1,
        match (if 2 * r.getC c < l.length then scanFwd c h x l 0 else scanBwd c h x l.reverse (l.length - 1)).2 with
        | .ok i => .ok ((i : Int), true)
        | .error e => .error e) : Res (Int × Bool)).2 = .error e → crash e := by
    intro he
    split at he
    · split at he
      · simp at he; subst he; simp [crash]
      · simp at he
    · dsimp only at he
      split at he
      · simp at he
      · next e' h2 =>
        have : e' = e := by simpa using he
        subst this
        split at h2
        · exact scanFwd_kind _ _ _ _ _ _ h2
        · exact scanBwd_kind _ _ _ _ _ _ h2
  split at he
  · split at he
    · simp at he; subst he; simp [crash]
    · split at he
      · simp at he
      · exact slow he
  · exact slow he

theorem idx_kind {h : Heap} {x : Id} {e : Err} (he : (h.idx x).2 = .error e) : crash e := by
  unfold Heap.idx at he
  split at he
  · simp at he
  · dsimp only at he
    split at he
    · simp at he
    · next e' h2 =>
      have : e' = e := by simpa using he
      subst this
      exact cachedPos_kind h2

theorem tagIdx_kind {h : Heap} {x : Id} {e : Err} (he : (h.tagIdx x).2 = .error e) : crash e := by
  unfold Heap.tagIdx at he
  split at he
  · simp at he
  · split at he
    · simp at he; subst he; simp [crash]
    · split at he
      · simp at he; subst he; simp [crash]
      · dsimp only at he
        split at he
        · simp at he
        · simp at he
        · next e' h2 =>
          have : e' = e := by simpa using he
          subst this
          exact cachedPos_kind h2

theorem famInsIdxAux_kind (fuel : Nat) : ∀ (h : Heap) (fam : List Id) (k : Int) (last : Nat) (e : Err),
    (famInsIdxAux fuel h fam k last).2 = .error e → crash e := by
  induction fuel with
  | zero => intro h fam k last e he; simp [famInsIdxAux] at he; subst he; simp [crash]
  | succ n ih =>
    intro h fam k last e he
    unfold famInsIdxAux at he
    split at he
    · simp at he; subst he; simp [crash]
    · dsimp only at he
      split at he
      · simp at he
      · simp at he; subst he; simp [crash]
      · next e' h2 =>
        have : e' = e := by simpa using he
        subst this
        exact idx_kind h2
    · dsimp only at he
      split at he
      · simp at he; subst he; simp [crash]
      · split at he
        · split at he
          · exact ih _ _ _ _ _ he
          · exact ih _ _ _ _ _ he
        · simp at he; subst he; simp [crash]
        · next e' h2 =>
          have : e' = e := by simpa using he
          subst this
          exact idx_kind h2

theorem replaceChild_kind {h : Heap} {p old x : Id} {e : Err} (he : (replaceChild h p old x).2 = .error e) : crash e := by
  unfold replaceChild at he
  dsimp only at he
  split at he
  · next e' h2 => simp at he; subst he; exact idx_kind h2
  · simp at he; subst he; simp [crash]
  · split at he
    · next e' h2 => simp at he; subst he; exact tagIdx_kind h2
    · simp at he; subst he; simp [crash]
    · simp at he; subst he; simp [crash]
    · split at he
      · simp at he
      · split at he
        · simp at he
        · split at he
          · simp at he
          · simp at he
          · simp at he
          · next e' _ _ h2 => simp at he; subst he; exact famInsIdxAux_kind _ _ _ _ _ _ h2

/-- a failing `t[target] = a` that does not stop in the middle changes nothing -/
theorem setItem_err {h : Heap} (C : Core h) {p : Id} {tg : Target} {a : Arg} {old : Id} {e : Err} (hg : getItem h p tg = .ok (.one old)) (hdots : tg ≠ .dots)
    (htag : tg.asTag ≠ some (argTag h a)) (hne : a ≠ .item old) (hcr : ¬ crash e) (hr : (setItem h p tg a).2 = .error e) : (setItem h p tg a).1 = h := by
  revert hr
  unfold setItem
  split
  · intro _; rfl
  · simp only [hg]
    rw [if_neg (by
      cases a with
      | item i => simp only [beq_iff_eq]; rintro rfl; exact hne rfl
      | val v => simp)]
    split
    · next e' he' =>
      intro _
      exact prepSet_err (show prepSet h p a = ((prepSet h p a).1, .error e') by rw [← he'])
    · next z hz =>
      have htz : tg.asTag ≠ some ((prepSet h p a).1.tag z) := by
        have hprep : prepSet h p a = ((prepSet h p a).1, .ok z) := by rw [← hz]
        have : (prepSet h p a).1.tag z = argTag h a := by
          rcases prepSet_ok hprep with ⟨i, rfl, rfl, e, hi⟩ | ⟨i, rfl, hi, e⟩ | ⟨v, rfl, Al⟩
          · rw [e]; rfl
          · have CS := copyItem_spec C.wf i
            have e1 : (prepSet h p (.item i)).1 = (copyItem h i).1 := by rw [← e]
            have e2 : z = (copyItem h i).2 := by rw [← e]
            rw [e1, e2]
            obtain ⟨T, t1, t2, t3, t4⟩ := CS.rep
            obtain ⟨i', tt, v, f, l, ks⟩ := T
            simp only [Tree.id] at t1
            subst t1
            simp only [Rep] at t2
            rw [t2.1]
            cases hT : h.tree i with
            | node a b c d e f =>
              rw [hT] at t3
              simp only [Tree.shape, Tree.copyShape, Shape.node.injEq] at t3
              rw [t3.1]
              have : (h.tree i).tag = h.tag i := by
                simp only [Heap.tree]; cases h.next <;> rfl
              rw [hT] at this; exact this
          · rw [Al.eq, Al.id]; simp [Heap.tag, Heap.alloc, argTag]
        rw [this]; exact htag
      split
      · next hh => exact (htz hh).elim
      · intro hr
        exact (hcr (replaceChild_kind hr)).elim

theorem setItem_keeps {h : Heap} (C : Core h) {p : Id} {tg : Target} {a : Arg} (ha : Allowed h (.setItem p tg a)) : Keeps h (setItem h p tg a).1 := by
  obtain ⟨hp, hA, -, hh⟩ := ha
  rcases hh with ⟨e, he⟩ | ⟨old, hg, hdots, htag, hfam, hcr⟩
  · unfold setItem
    split
    · exact Keeps.refl C
    · simp only [he]; exact Keeps.refl C
  · by_cases hne : a = .item old
    · subst hne
      unfold setItem
      split
      · exact Keeps.refl C
      · simp only [hg, beq_self_eq_true, if_true]; exact Keeps.refl C
    · obtain ⟨n, hn⟩ := List.getElem?_of_mem (getItem_one C.wf hg)
      cases hr : (setItem h p tg a).2 with
      | ok x =>
        have S := setItem_spec C.wf hp (fun i e => (hA i e).1) hg hn hne hdots (fun t t1 t2 => by
            have : t = argTag h a := by
              cases a with
              | item i => exact t1 i rfl
              | val v => exact t2 v rfl
            rw [this]; exact htag) (by
            rcases hfam with h1 | h1
            · left
              cases a with
              | item i => exact ⟨by rintro _ ⟨⟩; exact h1, by rintro _ ⟨⟩⟩
              | val v => exact ⟨by rintro _ ⟨⟩, by rintro _ ⟨⟩; exact h1.symm⟩
            · right; exact h1) (show setItem h p tg a = ((setItem h p tg a).1, .ok x) by rw [← hr])
        exact ⟨⟨S.wf, S.forest C.forest (fun i e => (hA i e).2), S.nocov C.nocov⟩, S.frame.next, S.nz⟩
      | error e =>
        have hcr := hcr e hr
        rw [setItem_err C hg hdots htag hne hcr hr]; exact Keeps.refl C

/-- a target that does not lead to a single child is accepted only by an item without children -/
theorem insert_odd {h h' : Heap} (C : Core h) {p x : Id} {a : Arg} {tg : Target} (hp : p < h.next) (hA : ArgOK h p a) (hi : ¬ ∃ k, tg = .int k)
    (hg : ∀ y, getItem h p tg ≠ .ok (.one y)) (hr : insert h p (some tg) a = (h', .ok x)) : Keeps h h' := by
  unfold insert at hr
  dsimp only at hr
  split at hr
  · simp at hr
  · split at hr
    · simp at hr
    · next z hz =>
      have hprep : prepItem h a = ((prepItem h a).1, .ok z) := by rw [← hz]
      split at hr
      · next hnil =>
        simp only [Prod.mk.injEq, Except.ok.injEq] at hr
        obtain ⟨rfl, rfl⟩ := hr
        have P : PlaceSpec h (appendItem (prepItem h a).1 p z) p a z 0 := by
          refine placeSpec_of C.wf hp (fun i e => (hA i e).1) hprep ?_ (Nat.zero_le _)
          intro W1 h1 _ hk
          have := appendItem_attach W1 (p := p) h1
          rwa [hnil] at this
        exact P.keeps C fun i e => (hA i e).2 (P.item i e).2
      · next hnil =>
        exfalso
        have hnode := prepItem_node hprep hp
        have hk : (prepItem h a).1.kids p = h.kids p := by simp only [Heap.kids, hnode]
        have hb : (prepItem h a).1.boundFams p = h.boundFams p := by simp only [Heap.boundFams, hnode]
        have : ∃ e, (insertPos (prepItem h a).1 p tg).2 = .error e := by
          unfold insertPos
          split
          · exact (hi ⟨_, rfl⟩).elim
          · exact ⟨_, rfl⟩
          · rw [getItem_congr hk hb]
            split
            · exact ⟨_, rfl⟩
            · exact ⟨_, rfl⟩
            · next y hy => exact (hg y hy).elim
        obtain ⟨e, he⟩ := this
        rw [he] at hr
        simp at hr

theorem step_core {ms : ModelSet} {h : Heap} (C : Core h) (c : Call) (ha : Allowed h c) :
    Core (step ms h c).1 ∧ h.next ≤ (step ms h c).1.next ∧ (c.leavesStrays = false → NoZombie h → NoZombie (step ms h c).1) := by
  have K : ∀ {h'}, Keeps h h' → Core h' ∧ h.next ≤ h'.next ∧ (c.leavesStrays = false → NoZombie h → NoZombie h') :=
    fun k => ⟨k.core, k.le, fun _ => k.nz⟩
  cases c with
  | new t v s f => exact K (newItem_keeps C t v s f ha.1)
  | newLink t v s f file path => exact K (newLink_keeps C t v s f file path ha.1)
  | append p a =>
    obtain ⟨hp, hA⟩ := ha
    refine K ?_
    show Keeps h (append h p a).1
    cases hr : (append h p a).2 with
    | error e => rw [append_err (show append h p a = ((append h p a).1, .error e) by rw [← hr])]; exact Keeps.refl C
    | ok x =>
      have P := append_spec C.wf hp (fun i e => (hA i e).1) (show append h p a = ((append h p a).1, .ok x) by rw [← hr])
      exact P.keeps C fun i e => (hA i e).2 (P.item i e).2
  | appendLeft p a =>
    obtain ⟨hp, hA⟩ := ha
    refine K ?_
    show Keeps h (appendLeft h p a).1
    cases hr : (appendLeft h p a).2 with
    | error e => rw [appendLeft_err (show appendLeft h p a = ((appendLeft h p a).1, .error e) by rw [← hr])]; exact Keeps.refl C
    | ok x =>
      have P := appendLeft_spec C.wf hp (fun i e => (hA i e).1) (show appendLeft h p a = ((appendLeft h p a).1, .ok x) by rw [← hr])
      exact P.keeps C fun i e => (hA i e).2 (P.item i e).2
  | insert p tg a =>
    obtain ⟨hp, hA, hk, h1, h2⟩ := ha
    refine K ?_
    show Keeps h (insert h p tg a).1
    cases hr : (insert h p tg a).2 with
    | error e => rw [hr] at h1 h2; exact (insert_err C hp (by simpa using h1) (by simpa using h2) (show insert h p tg a = (_, .error e) by rw [← hr])).1
    | ok x =>
      have hr' : insert h p tg a = ((insert h p tg a).1, .ok x) := by rw [← hr]
      have fin : ∀ n, PlaceSpec h (insert h p tg a).1 p a x n → Keeps h (insert h p tg a).1 := fun n P =>
        P.keeps C fun i e => (hA i e).2 (P.item i e).2
      cases tg with
      | none => exact fin _ (append_spec C.wf hp (fun i e => (hA i e).1) hr')
      | some tg =>
        by_cases hi : ∃ k, tg = .int k
        · obtain ⟨k, rfl⟩ := hi
          exact fin _ (insert_spec C.wf hp (fun i e => (hA i e).1) (hk k rfl) hr')
        · cases hg : getItem h p tg with
          | ok g =>
            cases g with
            | one y =>
              obtain ⟨n, hn⟩ := List.getElem?_of_mem (getItem_one C.wf hg)
              exact fin _ (insertTarget_spec C.wf hp (fun i e => (hA i e).1) (fun k e => hi ⟨k, e⟩) hg hn hr')
            | many l => exact insert_odd C hp hA hi (fun y e => by rw [hg] at e; simp at e) hr'
          | error e => exact insert_odd C hp hA hi (fun y e => by rw [hg] at e; simp at e) hr'
  | extend p as => exact K (extend_keeps C ha.1 (fun i hi => (ha.2.1 _ hi i rfl).1) (fun i hi => (ha.2.1 _ hi i rfl).2))
  | extendTree p u => exact K (extendTree_keeps C ha)
  | extendLeft p as =>
    exact K (extendLeft_keeps C ha.1 (fun i hi => ((ha.2.1 _ hi).1 i rfl).1) (fun i hi => (ha.2.1 _ hi).2 i rfl) (fun i hi => ((ha.2.1 _ hi).1 i rfl).2))
  | del p tg => exact K (delItem_keeps C p tg ha)
  | remove p x => exact K (remove_keeps C p x)
  | setItem p tg a => exact K (setItem_keeps C ha)
  | move x tg => obtain ⟨p, a1, a2, a3, a4⟩ := ha; exact K (move_keeps C a1 tg a2 a3 a4)
  | rename x g => exact K (rename_keeps C g ha)
  | reverse p => exact K (reverse_keeps C p)
  | rotate p n => exact K (rotate_keeps C ha n)
  | sort p k r => have := sort_core C ha k r; exact ⟨this.1, this.2, fun e => by simp [Call.leavesStrays] at e⟩
  | clear p k => have := clear_core C p k; exact ⟨this.1, this.2, fun e => by simp [Call.leavesStrays] at e⟩
  | copy x => exact K ((copyItem_spec C.wf x).keeps C)
  | setTreeReadOnly x => exact K ((setFlagsAll_data _ _ _).keeps C)
  | unsetTreeReadOnly x => exact K ((unsetTreeReadOnly_data _ _).keeps C)
  | setValueReadOnly x => exact K ((setFlags1_data _ _ _).keeps C)
  | unsetValueReadOnly x => exact K ((unsetFlagsOp_data _ _ _).keeps C)
  | setValue x v => exact K ((setValue_data _ _ _ _).keeps C)
  | setKeyValue x k v => exact K ((setKeyValue_data _ _ _ _ _).keeps C)
  | delValue x => exact K ((delValue_data _ _).keeps C)
  | delKeyValue x k => exact K ((delKeyValue_data _ _ _).keeps C)
  | readIdx x => exact K ((idx_ceq h x).keeps C)
  | readTagIdx x => exact K ((tagIdx_ceq h x).keeps C)

end ITree
