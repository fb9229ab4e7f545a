import Verif.Proofs.Steps
/-
Calls that look up a target: insert, setitem, move; and the reordering calls.
-/
namespace ITree

/-! ### lookup -/

theorem pyGet_mem {l : List Id} {k : Int} {y : Id} (h : pyGet l k = some y) : y ∈ l := by
  unfold pyGet at h
  split at h
  · exact List.mem_of_getElem? h
  · split at h
    · exact List.mem_of_getElem? h
    · simp at h

theorem fallbackTag_one {F tg e y} : fallbackTag F tg e ≠ .ok (.one y) := by
  unfold fallbackTag
  split
  · split <;> simp
  · simp

theorem FamOK.sub {h : Heap} {p : Id} {F : Fams} (O : FamOK h p F) {t : Tag} {l : List Id} (hl : F.get? t = some l) : ∀ y ∈ l, y ∈ h.kids p := by
  rw [O.get] at hl
  split at hl
  · simp at hl
  · simp only [Option.some.injEq] at hl
    subst hl
    intro y hy
    exact (List.mem_filter.1 hy).1

/-- an item found by a target is a child -/
theorem getItem_one {h : Heap} (W : WF h) {p y : Id} {tg : Target} (hg : getItem h p tg = .ok (.one y)) : y ∈ h.kids p := by
  have main : h.kids p ≠ [] → getItem1 h p tg = .ok (.one y) → y ∈ h.kids p := by
    intro hne h1
    obtain ⟨F, hb, hf, hO⟩ := W.bound hne
    unfold getItem1 at h1
    split at h1
    · simp only [hb, Option.getD_some] at h1
      unfold getKey at h1
      dsimp only at h1
      split at h1
      · exact (fallbackTag_one h1).elim
      · next fam hfam =>
        split at h1
        · simp at h1
        · split at h1
          · next z hz => simp at h1; subst h1; exact hO.sub hfam _ (pyGet_mem hz)
          · exact (fallbackTag_one h1).elim
        · split at h1
          · simp at h1
          · exact (fallbackTag_one h1).elim
        · split at h1
          · simp at h1
          · exact (fallbackTag_one h1).elim
        · split at h1
          · split at h1
            · simp at h1
            · exact (fallbackTag_one h1).elim
          · exact (fallbackTag_one h1).elim
    · split at h1
      · next z hz => simp at h1; subst h1; exact pyGet_mem hz
      · exact (fallbackTag_one h1).elim
    · split at h1 <;> simp at h1
    · split at h1
      · split at h1 <;> simp at h1
      · simp at h1
    · simp at h1
    · simp at h1
    · split at h1 <;> simp at h1
    · simp at h1
    · simp at h1
  cases tg with
  | list l =>
    simp only [getItem] at hg
    split at hg
    · simp at hg
    · split at hg
      · split at hg <;> simp at hg
      · simp at hg
  | _ =>
    simp only [getItem] at hg
    split at hg
    · simp at hg
    · next hne => exact main hne hg

mutual
theorem getItem_congr {h h1 : Heap} {p : Id} (hk : h1.kids p = h.kids p) (hb : h1.boundFams p = h.boundFams p) :
    ∀ (tg : Target), getItem h1 p tg = getItem h p tg
  | .list l => by simp only [getItem, hk, getItems_congr hk hb l]
  | .int i => by simp only [getItem, getItem1, hk, hb]
  | .slice i => by simp only [getItem, getItem1, hk]
  | .key g s => by simp only [getItem, getItem1, hk, hb]
  | .tag t => by simp only [getItem, getItem1, hk, hb]
  | .tags l => by simp only [getItem, getItem1, hk, hb]
  | .dots => by simp only [getItem, getItem1, hk]
  | .filter f => by simp only [getItem, getItem1, hk]
  | .item f => by simp only [getItem, getItem1, hk]
theorem getItems_congr {h h1 : Heap} {p : Id} (hk : h1.kids p = h.kids p) (hb : h1.boundFams p = h.boundFams p) :
    ∀ (l : List Target), getItems h1 p l = getItems h p l
  | [] => by simp only [getItems]
  | t :: ts => by simp only [getItems, getItem_congr hk hb t, getItems_congr hk hb ts]
end

theorem prepItem_node {h h1 : Heap} {a : Arg} {x : Id} (hr : prepItem h a = (h1, .ok x)) {i : Id} (hi : i < h.next) : h1.node i = h.node i := by
  rcases prepItem_ok hr with ⟨_, _, _, rfl, _⟩ | ⟨v, _, A⟩
  · rfl
  · rw [A.eq]; simp [Heap.alloc]; omega

/-- `insert` in front of the child a target leads to -/
theorem insertTarget_spec {h h' : Heap} (W : WF h) {p x y : Id} {a : Arg} {tg : Target} {n : Nat} (hp : p < h.next) (ha : ∀ i, a = .item i → i < h.next)
    (htg : ∀ k, tg ≠ .int k) (hg : getItem h p tg = .ok (.one y)) (hy : (h.kids p)[n]? = some y)
    (hr : insert h p (some tg) a = (h', .ok x)) : PlaceSpec h h' p a x n := by
  have hym := List.mem_of_getElem? hy
  have hnl : n < (h.kids p).length := (List.getElem?_eq_some_iff.1 hy).1
  unfold insert at hr
  dsimp only at hr
  split at hr
  · simp at hr
  · split at hr
    · simp at hr
    · next z hz =>
      have hprep : prepItem h a = ((prepItem h a).1, .ok z) := by rw [← hz]
      have hnode := prepItem_node hprep hp
      have hk : (prepItem h a).1.kids p = h.kids p := by simp only [Heap.kids, hnode]
      have hb : (prepItem h a).1.boundFams p = h.boundFams p := by simp only [Heap.boundFams, hnode]
      split at hr
      · next hnil => rw [hk] at hnil; rw [hnil] at hym; simp at hym
      · next hnil =>
        have W1 : WF (prepItem h a).1 := by
          rcases prepItem_ok hprep with ⟨_, _, _, e, _⟩ | ⟨v, _, A⟩
          · rw [e]; exact W
          · exact A.wf W
        obtain ⟨m, e1, e2⟩ := idx_child W1 (p := p) (x := y) (by rw [hk]; exact hym)
        have hmn : m = n := by rw [hk] at e2; rw [← nodup_idxOf_unique (W.kids_nodup p) hy, nodup_idxOf_unique (W.kids_nodup p) e2]
        subst hmn
        have H : CEq (prepItem h a).1 ((prepItem h a).1.idx y).1 := idx_ceq _ _
        have hpos : insertPos (prepItem h a).1 p tg = (((prepItem h a).1.idx y).1, Except.ok (m : Int)) := by
          have hg' := (getItem_congr hk hb tg).trans hg
          unfold insertPos
          split
          · exact (htg _ rfl).elim
          · simp only [getItem, getItem1] at hg'; split at hg' <;> simp at hg'
          · simp only [hg', e1]
        rw [hpos] at hr
        dsimp only at hr
        have hzx := insertAt_id hr
        subst hzx
        refine placeSpec_of W hp ha hprep ?_ (Nat.le_of_lt hnl)
        intro W1 h1 _ _
        have := (insertAt_attach (H.wf W1) (by rw [H.kids]; exact hnil) ((H.parent_none x).2 h1) (by omega) hr).2
        rw [H.kids, hk] at this
        have hpn : pyInsPos (h.kids p).length (m : Int) = m := by
          unfold pyInsPos; rw [if_neg (by omega)]; omega
        rw [hpn] at this
        exact this.ofCEq H

/-! ### setitem -/

/-- what is put in place by `t[target] = a`: a free item itself, a copy of an item that has a parent, or a new item around any other object -/
def SetArg (h h' : Heap) (a : Arg) (x : Id) : Prop :=
  match a with
  | .val v => x = h.next ∧ h'.tag x = .noTag ∧ (h'.node x).value = v ∧ h'.flags x = 0#6 ∧ h'.kids x = []
  | .item i => (h.par i = none → x = i) ∧
    (h.par i ≠ none → h.next ≤ x ∧ (Forest h → ∃ T : Tree, T.id = x ∧ Rep h' T ∧ T.shape = (h.tree i).copyShape))

structure SetSpec (h h' : Heap) (p : Id) (a : Arg) (old x : Id) (n : Nat) : Prop where
  wf : WF h'
  kids : h'.kids p = (h.kids p).set n x
  par : h'.par x = some p
  oldPar : h'.par old = none
  frame : Frame h h' (· = p) (fun i => i = x ∨ i = old)
  arg : SetArg h h' a x
  nz : NoZombie h → NoZombie h'
  forest : Forest h → (∀ i, a = .item i → h.par i = none → ¬ Below h i p) → Forest h'
  nocov : NoCover h → NoCover h'

theorem ReplaceRel.setSpec {h h' : Heap} {p old x : Id} {n : Nat} (R : ReplaceRel h h' p old x n) (W : WF h) (hp : p < h.next) (hx : x < h.next)
    (hxp : (h.node x).parent = none) : WF h' ∧ h'.kids p = (h.kids p).set n x ∧ h'.par x = some p ∧ h'.par old = none ∧
    Frame h h' (· = p) (fun i => i = x ∨ i = old) ∧ (NoZombie h → NoZombie h') ∧ (Forest h → ¬ Below h x p → Forest h') ∧ (NoCover h → NoCover h') ∧
    (∀ i, i ≠ p → h'.kids i = h.kids i) := by
  have hkids := R.kids
  obtain ⟨hm, D, A⟩ := R
  have hom := List.mem_of_getElem? D.at_n
  have hxo : x ≠ old := by rintro rfl; exact W.not_child hxp p hom
  have Wm := D.wf W
  have hle : n ≤ (hm.kids p).length := by
    have := (List.getElem?_eq_some_iff.1 D.at_n).1
    rw [D.kids_p, List.length_eraseIdx_of_lt this]; omega
  have hxm : (hm.node x).parent = none := by
    have := D.par_o x hxo
    rw [hxp] at this
    cases h3 : (hm.node x).parent with
    | none => rfl
    | some r => rw [h3] at this; exact this.elim
  refine ⟨A.wf Wm (by rw [D.next]; exact hp) (by rw [D.next]; exact hx) hle hxm, hkids, by rw [A.par', if_pos rfl], ?_, ?_, fun Z => A.noZombie hle (D.noZombie W Z), ?_,
    fun N => A.noCover (D.noCover N), fun i e => (A.kids_o i e).trans (D.kids_o i e)⟩
  · rw [A.par', if_neg (Ne.symm hxo), D.par', if_pos rfl]
  · exact (D.frame.mono (fun i h => h) (fun i h => Or.inr h)).trans (A.frame.mono (fun i h => h) (fun i h => Or.inl h))
  · intro F hb
    refine A.forest hle (D.forest F) fun b => hb ?_
    have : ∀ {y}, Below hm x y → Below h x y := by
      intro y b
      induction b with
      | refl => exact Below.refl
      | @step q c _ hc ih =>
        refine ih.step ?_
        by_cases e : q = p
        · subst e; rw [D.kids_p] at hc; exact mem_of_eraseIdx hc
        · rwa [D.kids_o q e] at hc
    exact this b

theorem prepSet_ok {h h1 : Heap} {p : Id} {a : Arg} {x : Id} (hr : prepSet h p a = (h1, .ok x)) :
    (∃ i, a = .item i ∧ x = i ∧ h1 = h ∧ (h.node i).parent = none) ∨
    (∃ i, a = .item i ∧ h.par i ≠ none ∧ (h1, x) = copyItem h i) ∨
    (∃ v, a = .val v ∧ AllocRel h h1 x { tag := .noTag, value := v }) := by
  unfold prepSet at hr
  split at hr
  · next i =>
    split at hr
    · next hp => simp at hr; left; exact ⟨i, rfl, hr.2.symm, hr.1.symm, hp⟩
    · next r hp =>
      split at hr
      · right; left; simp at hr; exact ⟨i, rfl, by simp [Heap.par, hp], by rw [← hr.1, ← hr.2]⟩
      · simp at hr
  · next v =>
    right; right
    simp only [Prod.mk.injEq, Except.ok.injEq] at hr
    exact ⟨v, rfl, hr.1.symm, hr.2.symm, rfl, rfl, Or.inl rfl⟩

theorem prepSet_err {h h1 : Heap} {p : Id} {a : Arg} {e : Err} (hr : prepSet h p a = (h1, .error e)) : h1 = h := by
  unfold prepSet at hr
  split at hr
  · split at hr
    · simp at hr
    · split at hr
      · simp at hr
      · simp at hr; exact hr.1.symm
  · simp at hr

/-- `t[target] = a`, where the target leads to one child `old` and is not the tag of the new item -/
theorem setItem_spec {h h' : Heap} (W : WF h) {p x old : Id} {a : Arg} {tg : Target} {n : Nat} (hp : p < h.next) (ha : ∀ i, a = .item i → i < h.next)
    (hg : getItem h p tg = .ok (.one old)) (hn : (h.kids p)[n]? = some old) (hne : a ≠ .item old)
    (hdots : tg ≠ .dots) (htag : ∀ t, (∀ i, a = .item i → t = h.tag i) → (∀ v, a = .val v → t = .noTag) → tg.asTag ≠ some t)
    (hfam : (∀ i, a = .item i → h.tag i = h.tag old) ∧ (∀ v, a = .val v → h.tag old = .noTag) ∨ 2 ≤ (famView h p (h.tag old)).length)
    (hr : setItem h p tg a = (h', .ok x)) : SetSpec h h' p a old x n := by
  unfold setItem at hr
  split at hr
  · simp at hr
  · simp only [hg] at hr
    rw [if_neg (by
      cases a with
      | item i => simp only [beq_iff_eq]; rintro rfl; exact hne rfl
      | val v => simp)] at hr
    split at hr
    · simp at hr
    · next z hz =>
      have hprep : prepSet h p a = ((prepSet h p a).1, .ok z) := by rw [← hz]
      have facts : WF (prepSet h p a).1 ∧ Unchanged h (prepSet h p a).1 ∧ ((prepSet h p a).1.node z).parent = none ∧ z < (prepSet h p a).1.next ∧
          ((∀ i, a = .item i → (prepSet h p a).1.tag z = h.tag i) ∧ (∀ v, a = .val v → (prepSet h p a).1.tag z = .noTag)) ∧
          (NoZombie h → NoZombie (prepSet h p a).1) ∧ (Forest h → Forest (prepSet h p a).1) ∧ (NoCover h → NoCover (prepSet h p a).1) ∧
          ((∀ i, a = .item i → h.par i = none → ¬ Below h i p) → ¬ Below (prepSet h p a).1 z p) ∧
          (∀ h', Frame (prepSet h p a).1 h' (· = p) (fun _ => True) → (∀ i, i ≠ p → h'.kids i = (prepSet h p a).1.kids i) → SetArg h h' a z) := by
        rcases prepSet_ok hprep with ⟨i, rfl, rfl, e, hi⟩ | ⟨i, rfl, hi, e⟩ | ⟨v, rfl, Al⟩
        · rw [e]
          refine ⟨W, Frame.refl _ _ _, hi, ha _ rfl, ⟨?_, ?_⟩, id, id, id, ?_, ?_⟩
          · rintro _ ⟨⟩; rfl
          · rintro _ ⟨⟩
          · intro hb; exact hb _ rfl (by simp [Heap.par, hi])
          · intro h' _ _
            refine ⟨fun _ => rfl, fun hh => ?_⟩
            simp [Heap.par, hi] at hh
        · have C := copyItem_spec W i
          have e1 : (prepSet h p (.item i)).1 = (copyItem h i).1 := by rw [← e]
          have e2 : z = (copyItem h i).2 := by rw [← e]
          rw [e1, e2]
          obtain ⟨T, t1, t2, t3, t4⟩ := C.rep
          refine ⟨C.wf, C.unchanged, C.par, C.lt, ⟨?_, ?_⟩, C.nz, C.forest, C.nocov, ?_, ?_⟩
          · rintro _ ⟨⟩
            obtain ⟨i', tt, v, f, l, ks⟩ := T
            simp only [Tree.id] at t1
            subst t1
            simp only [Rep] at t2
            rw [t2.1]
            have : (h.tree i) = h.snap h.next i := rfl
            cases hT : h.tree i with
            | node a b c d e f =>
              rw [hT] at t3
              simp only [Tree.shape, Tree.copyShape, Shape.node.injEq] at t3
              rw [t3.1]
              have : (h.tree i).tag = h.tag i := by
                simp only [Heap.tree]; cases h.next <;> rfl
              rw [hT] at this; exact this
          · rintro _ ⟨⟩
          · intro _ b
            have := (below_iff_ids t2 p).1 (by rw [t1]; exact b)
            have := (t4 p this).1
            omega
          · intro h' Fr hk
            refine ⟨fun hh => (hi hh).elim, fun _ => ⟨by rw [C.root], fun F => ⟨T, t1, ?_, t3⟩⟩⟩
            refine t2.congr fun j hj => ?_
            obtain ⟨j1, j2⟩ := t4 j hj
            have hjp : j ≠ p := by omega
            exact ⟨Fr.tag j j2, Fr.value j j2, Fr.flags j j2, Fr.link j j2, hk j hjp⟩
        · have hx := Al.id
          have hnx : (prepSet h p (.val v)).1.next = h.next + 1 := by rw [Al.eq]; rfl
          have hnode : (prepSet h p (.val v)).1.node z = { tag := .noTag, value := v } := by rw [Al.eq, hx]; simp [Heap.alloc]
          refine ⟨Al.wf W, Al.frame, by rw [hnode], by omega, ⟨?_, ?_⟩, Al.noZombie W, Al.forest W, fun N => Al.noCover N rfl, ?_, ?_⟩
          · rintro _ ⟨⟩
          · rintro _ ⟨⟩; simp [Heap.tag, hnode]
          · intro _ b
            have := below_leaf (by simp [Heap.kids, hnode]) b
            omega
          · intro h' Fr hk
            have hzl : z < (prepSet h p (.val v)).1.next := by omega
            refine ⟨hx, by rw [Fr.tag z hzl]; simp [Heap.tag, hnode], by rw [Fr.value z hzl, hnode], by rw [Fr.flags z hzl]; simp [Heap.flags, hnode], ?_⟩
            rw [hk z (by omega)]; simp [Heap.kids, hnode]
      obtain ⟨W1, U, zp, zl, ztag, znz, zfor, zcov, zb, zarg⟩ := facts
      have hk : (prepSet h p a).1.kids p = h.kids p := U.kids p hp (fun h => h)
      have hpn : p < (prepSet h p a).1.next := Nat.lt_of_lt_of_le hp U.next
      split at hr
      · next hh => exact (htag _ ztag.1 ztag.2 hh).elim
      · skip
        have hn1 : ((prepSet h p a).1.kids p)[n]? = some old := by rw [hk]; exact hn
        have hom : old ∈ h.kids p := List.mem_of_getElem? hn
        have hol : old < h.next := W.kids_lt p old hom
        have hfv : famView (prepSet h p a).1 p (h.tag old) = famView h p (h.tag old) := by
          simp only [famView, hk]; apply List.filter_congr; intro c hc; rw [U.tag c (W.kids_lt p c hc)]
        obtain ⟨e, R⟩ := replaceChild_spec W1 hn1 zp (by
          rw [U.tag old hol, hfv]
          rcases hfam with ⟨f1, f2⟩ | h2
          · left
            cases a with
            | item i => rw [ztag.1 i rfl, f1 i rfl]
            | val v => rw [ztag.2 v rfl, f2 v rfl]
          · right; exact h2) hr
        subst e
        obtain ⟨q1, q2, q3, q4, q5, q6, q7, q8, q9⟩ := R.setSpec W1 hpn zl zp
        refine ⟨q1, by rw [q2, hk], q3, q4, ?_, ?_, fun Z => q6 (znz Z), fun F hb => q7 (zfor F) (zb hb), fun N => q8 (zcov N)⟩
        · exact (U.mono (by simp) (by simp)).trans q5
        · exact zarg _ (q5.mono (fun _ h => h) (fun _ _ => trivial)) q9

end ITree
