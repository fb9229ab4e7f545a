import Verif.Model.SetList
import Verif.Props.Removing
import Verif.Props.Atomic
/-
C10: `t[target] = [x1, x2, …]`; C09: `t.remove([c1, c2, …])`.
-/
namespace ITree
variable {ms : ModelSet} {h h' : Heap} {p : Id}

/-- one item for another -/
def exchange (olds xs : List Id) (c : Id) : Id := ((olds.zip xs).lookup c).getD c

theorem exchange_other {olds xs : List Id} {c : Id} (hc : c ∉ olds) : exchange olds xs c = c := by
  unfold exchange
  have : (olds.zip xs).lookup c = none := by
    rw [List.lookup_eq_none_iff]
    rintro ⟨a, b⟩ hm
    have := (List.of_mem_zip hm).1
    simp only [bne_iff_ne, ne_eq, beq_iff_eq, Bool.not_eq_true, beq_eq_false_iff_ne]
    rintro rfl; exact hc this
  rw [this]; rfl

theorem exchange_cons {o x c : Id} {olds xs : List Id} : exchange (o :: olds) (x :: xs) c = if c = o then x else exchange olds xs c := by
  unfold exchange
  by_cases hc : c = o
  · subst hc; simp
  · have : (c == o) = false := by simpa using hc
    simp [List.lookup_cons, this, hc]

theorem set_eq_map {l : List Id} (hn : l.Nodup) {n : Nat} {o x : Id} (hl : l[n]? = some o) : l.set n x = l.map fun c => if c = o then x else c := by
  have hlen := (List.getElem?_eq_some_iff.1 hl).1
  apply List.ext_getElem? 
  intro m
  rw [List.getElem?_map, List.getElem?_set]
  by_cases hm : n = m
  · subst hm; rw [if_pos rfl, if_pos hlen, hl]; simp
  · rw [if_neg hm]
    cases hc : l[m]? with
    | none => rfl
    | some c =>
      have : c ≠ o := by
        rintro rfl
        exact hm (by rw [← nodup_idxOf_unique hn hl, ← nodup_idxOf_unique hn hc])
      simp [this]

/-- The objects of the list are new for the tree: values (no lists), or distinct items without a parent that are not above `p`; every one has the tag of the item it replaces, and no tag is an integer. -/
structure Fits (h : Heap) (p : Id) (olds : List Id) (as : List Arg) : Prop where
  len : as.length ≤ olds.length
  plain : ∀ a ∈ as, a.isPlain = true
  free : ∀ i, Arg.item i ∈ as → i < h.next ∧ h.par i = none ∧ ¬ Below h i p
  distinct : as.Pairwise fun a b => ∀ i, a = .item i → b ≠ .item i
  tags : ∀ (n : Nat) a o, as[n]? = some a → olds[n]? = some o → argTag h a = h.tag o
  noInt : ∀ a ∈ as, ∀ k, argTag h a ≠ .int k

/-- `x` is what the object `a` becomes: the item itself, or a new item without children around the value -/
def Became (h h' : Heap) (a : Arg) (x : Id) : Prop :=
  match a with
  | .item i => x = i
  | .val v => h.next ≤ x ∧ (h'.node x).value = v ∧ h'.tag x = .noTag ∧ h'.kids x = []

structure ListSet (h h' : Heap) (p : Id) (olds : List Id) (as : List Arg) (xs : List Id) : Prop where
  became : List.Forall₂ (Became h h') as xs
  kids : h'.kids p = (h.kids p).map (exchange olds xs)
  par : ∀ x ∈ xs, h'.par x = some p
  gone : ∀ o ∈ olds.take as.length, h'.par o = none
  frame : Frame h h' (· = p) (fun i => i ∈ xs ∨ i ∈ olds.take as.length)

theorem below_swap {h1 : Heap} (W : WF h) (hk : ∀ i, i < h.next → i ≠ p → h1.kids i = h.kids i) {i y : Id} (hi : i < h.next) (b : Below h1 i y) :
    Below h i y ∨ Below h i p := by
  induction b with
  | refl => exact .inl .refl
  | @step q c _ hc ih =>
    rcases ih with b | b
    · by_cases hq : q = p
      · subst hq; exact .inr b
      · have hql : q < h.next := by
          cases b with
          | refl => exact hi
          | step _ hm => exact W.kids_lt _ _ hm
        rw [hk q hql hq] at hc
        exact .inl (.step b hc)
    · exact .inr b

theorem argTag_frame {K P : Id → Prop} {h1 : Heap} (F : Frame h h1 K P) {a : Arg} (ha : ∀ i, a = .item i → i < h.next) : argTag h1 a = argTag h a := by
  cases a with
  | item i => exact F.tag i (ha i rfl)
  | val v => rfl

theorem setListLoop_spec : ∀ (as : List Arg) (all olds : List Id) (k : Nat) {h h' : Heap} {xs : List Id}, Core h → p < h.next → all.drop k = olds → olds.Nodup →
    (∀ o ∈ olds, o ∈ h.kids p) → Fits h p olds as → setListLoop h p (.many all) k as = (h', .ok xs) → ListSet h h' p olds as xs ∧ Core h' := by
  intro as
  induction as with
  | nil =>
    intro all olds k h h' xs C hp hd hn hs hf hr
    simp only [setListLoop, Prod.mk.injEq, Except.ok.injEq] at hr
    obtain ⟨rfl, rfl⟩ := hr
    have he : (exchange olds []) = id := by funext c; simp [exchange]
    exact ⟨⟨.nil, by rw [he]; simp, by simp, by simp, Frame.refl h _ _⟩, C⟩
  | cons a as ih =>
    intro all olds k h h' xs C hp hd hn hs hf hr
    cases olds with
    | nil => have := hf.len; simp at this
    | cons o olds =>
      have hok : all[k]? = some o := by
        have := congrArg (·[0]?) hd
        simpa using this
      have hdr : all.drop (k + 1) = olds := by
        rw [← List.drop_drop, hd]; rfl
      obtain ⟨hon, hn'⟩ := List.nodup_cons.1 hn
      have ho : o ∈ h.kids p := hs o (by simp)
      obtain ⟨n, e1, e2⟩ := idx_child C.wf ho
      have H := idx_ceq h o
      have C1 := (H.keeps C).core
      simp only [setListLoop, oldAt, hok, e1] at hr
      generalize hh1 : (h.idx o).1 = h1 at hr H C1
      cases hse : setItem h1 p (.int n) a with
      | mk h2 r =>
      cases r with
      | error e => simp [hse] at hr
      | ok x =>
      simp only [hse] at hr
      generalize hq : setListLoop h2 p (.many all) (k + 1) as = q at hr
      obtain ⟨h3, rr⟩ := q
      cases rr with
      | error e => simp at hr
      | ok ys =>
      simp only [Prod.mk.injEq, Except.ok.injEq] at hr
      obtain ⟨rfl, rfl⟩ := hr
      have hp1 : p < h1.next := by rw [H.next]; exact hp
      have hk1 : h1.kids p = h.kids p := H.kids p
      have hlen := (List.getElem?_eq_some_iff.1 e2).1
      have hg : getItem h1 p (.int n) = .ok (.one o) := by
        rw [C20_index h1 p n n (by rw [hk1]; exact hlen) (.inl rfl)]
        simp only [hk1]
        rw [(List.getElem?_eq_some_iff.1 e2).2]
      have hat : argTag h1 a = argTag h a := by
        cases a with
        | item i => exact H.tag i
        | val v => rfl
      have hae : argTag h a = h.tag o := hf.tags 0 a o (by simp) (by simp)
      have hfree : ∀ i, a = .item i → i < h.next ∧ h.par i = none ∧ ¬ Below h i p := by rintro i rfl; exact hf.free i (by simp)
      have hne : a ≠ .item o := by
        rintro rfl
        have := (hfree o rfl).2.1
        rw [par_child C.wf ho] at this; simp at this
      have hnoint : ∀ k, argTag h a ≠ .int k := hf.noInt a (by simp)
      have S := setItem_spec C1.wf hp1 (a := a) (tg := .int n) (old := o) (n := n) (fun i e => by rw [H.next]; exact (hfree i e).1) hg (by rw [hk1]; exact e2) hne (by simp)
        (by
          intro t t1 t2 e
          simp only [Target.asTag, Option.some.injEq] at e
          cases a with
          | item i => exact hnoint n (by rw [← hat]; simp only [argTag]; rw [← t1 i rfl, ← e])
          | val v => have := t2 v rfl; rw [← e] at this; simp at this)
        (by
          left
          cases a with
          | item i => exact ⟨by rintro _ ⟨⟩; rw [H.tag, H.tag]; exact hae, by rintro _ ⟨⟩⟩
          | val v => exact ⟨by rintro _ ⟨⟩, by rintro _ ⟨⟩; rw [H.tag]; exact hae.symm⟩) hse
      have C2 : Core h2 := ⟨S.wf, S.forest C1.forest (by
        intro i e _ b
        exact (hfree i e).2.2 ((Below.congr (fun i => H.kids i)).1 b)), S.nocov C1.nocov⟩
      have F1 : Frame h h2 (· = p) (fun i => i = x ∨ i = o) := by
        have := H.unchanged
        exact Frame.trans (this.mono (by simp) (by simp)) S.frame
      have hx : ∀ o' ∈ olds, x ≠ o' := by
        rintro o' ho' rfl
        have hm := hs x (by simp [ho'])
        have hpx := par_child C.wf hm
        cases a with
        | item i =>
          have hi := hfree i rfl
          have : x = i := S.arg.1 ((H.unchanged.par i hi.1 id).trans hi.2.1)
          rw [this, hi.2.1] at hpx; simp at hpx
        | val v =>
          have : x = h1.next := S.arg.1
          rw [H.next] at this
          have := C.wf.kids_lt _ _ hm
          omega
      have hkids2 : h2.kids p = (h.kids p).map fun c => if c = o then x else c := by
        rw [S.kids, hk1]; exact set_eq_map (C.wf.kids_nodup p) e2
      have hfits : Fits h2 p olds as := by
        refine ⟨by have := hf.len; simp at this; omega, fun b hb => hf.plain b (by simp [hb]), ?_, (List.pairwise_cons.1 hf.distinct).2, ?_, ?_⟩
        · intro i hi
          obtain ⟨i1, i2, i3⟩ := hf.free i (by simp [hi])
          refine ⟨Nat.lt_of_lt_of_le i1 F1.next, ?_, ?_⟩
          · rw [F1.par i i1 (by
              rintro (rfl | rfl)
              · cases a with
                | item j =>
                  have hj := hfree j rfl
                  have : i = j := S.arg.1 ((H.unchanged.par j hj.1 id).trans hj.2.1)
                  exact (List.pairwise_cons.1 hf.distinct).1 _ hi j rfl (by rw [this])
                | val v =>
                  have : i = h1.next := S.arg.1
                  rw [H.next] at this; omega
              · rw [par_child C.wf ho] at i2; simp at i2)]
            exact i2
          · intro b
            rcases below_swap C.wf (fun j hj hjp => F1.kids j hj hjp) i1 b with b | b <;> exact i3 b
        · intro m b o' hb ho'
          rw [argTag_frame F1 (by rintro i rfl; exact (hf.free i (by simp [List.mem_of_getElem? hb])).1), F1.tag o' (C.wf.kids_lt _ _ (hs o' (by simp [List.mem_of_getElem? ho'])))]
          exact hf.tags (m + 1) b o' (by simpa using hb) (by simpa using ho')
        · intro b hb j
          rw [argTag_frame F1 (by rintro i rfl; exact (hf.free i (by simp [hb])).1)]
          exact hf.noInt b (by simp [hb]) j
      obtain ⟨L, C3⟩ := ih all olds (k + 1) C2 (Nat.lt_of_lt_of_le hp F1.next) hdr hn' (by
        intro o' ho'
        rw [hkids2]
        exact List.mem_map.2 ⟨o', hs o' (by simp [ho']), by rw [if_neg (by rintro rfl; exact hon ho')]⟩) hfits hq
      have hxl : x < h2.next := by
        have hxk : x ∈ h2.kids p := by rw [S.kids, hk1]; exact List.mem_set hlen x
        exact S.wf.kids_lt _ _ hxk
      have hol : o < h.next := C.wf.kids_lt _ _ ho
      have hxp : x ≠ p := by
        intro e
        have hxk : x ∈ h2.kids p := by rw [S.kids, hk1]; exact List.mem_set hlen x
        rw [e] at hxk
        exact C2.forest.asymmetric _ _ hxk hxk
      have hzip : ∀ i, (i ∈ ys ∨ i ∈ olds.take as.length) → i ∈ x :: ys ∨ i ∈ (o :: olds).take (a :: as).length := by
        rintro i (hi | hi)
        · exact .inl (by simp [hi])
        · exact .inr (by simp [hi])
      have hyo : o ∉ ys ∧ x ∉ ys := by
        have hboth : ∀ (bs : List Arg) (zs : List Id), List.Forall₂ (Became h2 h3) bs zs → (∀ b ∈ bs, b ∈ as) → o ∉ zs ∧ x ∉ zs := by
          intro bs zs hz
          induction hz with
          | nil => intro _; simp
          | @cons b z bs zs hbz _ ihz =>
            intro hb
            obtain ⟨z1, z2⟩ := ihz (fun b' hb' => hb b' (by simp [hb']))
            have hbm := hb b (by simp)
            cases b with
            | item i =>
              have hzi : z = i := hbz
              obtain ⟨i1, i2, i3⟩ := hf.free i (by simp [hbm])
              refine ⟨?_, ?_⟩
              · simp only [List.mem_cons, not_or]
                refine ⟨?_, z1⟩
                rintro rfl; rw [← hzi, par_child C.wf ho] at i2; simp at i2
              · simp only [List.mem_cons, not_or]
                refine ⟨?_, z2⟩
                intro e
                have hfi := (hfits.free i hbm).2.1
                rw [← hzi, ← e, S.par] at hfi; simp at hfi
            | val v =>
              have hzi : h2.next ≤ z := hbz.1
              refine ⟨?_, ?_⟩
              · simp only [List.mem_cons, not_or]
                refine ⟨?_, z1⟩
                have := F1.next; omega
              · simp only [List.mem_cons, not_or]
                exact ⟨by omega, z2⟩
        exact hboth as ys L.became (fun _ h => h)
      have hxo : x ≠ o := by
        intro e
        have := S.par; rw [e, S.oldPar] at this; simp at this
      have hoo : ∀ zs : List Id, (∀ z ∈ zs, z ∈ olds) → o ∉ zs := fun zs hz hm => hon (hz o hm)
      have hpar3 : ∀ i, i = x ∨ i = o → h3.par i = h2.par i := by
        intro i hi
        refine L.frame.par i ?_ ?_
        · rcases hi with rfl | rfl
          · exact hxl
          · exact Nat.lt_of_lt_of_le hol F1.next
        · rintro (hm | hm)
          · rcases hi with rfl | rfl
            · exact hyo.2 hm
            · exact hyo.1 hm
          · have hm := List.mem_of_mem_take hm
            rcases hi with rfl | rfl
            · exact hx _ hm rfl
            · exact hon hm
      refine ⟨⟨.cons ?_ ?_, ?_, ?_, ?_, ?_⟩, C3⟩
      · cases a with
        | item i => exact S.arg.1 ((H.unchanged.par i (hfree i rfl).1 id).trans (hfree i rfl).2.1)
        | val v =>
          obtain ⟨s1, s2, s3, _, s4⟩ := S.arg
          refine ⟨by rw [s1, H.next], ?_, ?_, ?_⟩
          · rw [L.frame.value x hxl]; exact s3
          · rw [L.frame.tag x hxl]; exact s2
          · rw [L.frame.kids x hxl hxp]; exact s4
      · refine L.became.imp fun b z hbz => ?_
        cases b with
        | item i => exact hbz
        | val v => exact ⟨Nat.le_trans F1.next hbz.1, hbz.2⟩
      · rw [L.kids, hkids2, List.map_map]
        apply List.map_congr_left
        intro c _
        simp only [Function.comp, exchange_cons]
        by_cases hc : c = o
        · rw [if_pos hc, if_pos hc]; exact exchange_other fun hm => hx x hm rfl
        · rw [if_neg hc, if_neg hc]
      · intro z hz
        rcases List.mem_cons.1 hz with rfl | hz
        · rw [hpar3 z (.inl rfl)]; exact S.par
        · exact L.par z hz
      · intro z hz
        simp only [List.length_cons, List.take_succ_cons, List.mem_cons] at hz
        rcases hz with rfl | hz
        · rw [hpar3 z (.inr rfl)]; exact S.oldPar
        · exact L.gone z hz
      · refine Frame.trans (F1.mono (fun _ h => h) ?_) (L.frame.mono (fun _ h => h) hzip)
        rintro i (rfl | rfl)
        · exact .inl (by simp)
        · exact .inr (by simp)

/-- C10. `t[target] = [x1, x2, …]` where `t[target]` is a list of distinct children `olds` (a slice, a family, an index list): if the call returns, the first children of `olds` are replaced, one after
the other, each in its place, by the objects of the list; they lose their parent, the other children stay where they are, and nothing else changes. -/
theorem C10_set_list {tg : Target} {olds : List Id} {as : List Arg} {xs : List Id} (R : Reach ms h) (hp : p < h.next) (hg : getItem h p tg = .ok (.many olds)) (hn : olds.Nodup)
    (hf : Fits h p olds as) (hr : setList h p tg as = (h', .ok xs)) :
    List.Forall₂ (Became h h') as xs ∧ h'.kids p = (h.kids p).map (exchange olds xs) ∧ (∀ x ∈ xs, h'.par x = some p) ∧ (∀ o ∈ olds.take as.length, h'.par o = none) ∧
    Frame h h' (· = p) (fun i => i ∈ xs ∨ i ∈ olds.take as.length) ∧ Aligned h' p := by
  unfold setList at hr
  split at hr
  · simp at hr
  · simp only [hg] at hr
    obtain ⟨L, C⟩ := setListLoop_spec as olds olds 0 R.core hp rfl hn ((C20_only_children R p tg).2 olds hg) hf hr
    exact ⟨L.became, L.kids, L.par, L.gone, L.frame, C.wf.aligned p⟩

/-- `t[0:2] = …` of `demo` (children 1 2 3 5, tags 1 2 1 …) with the free item 6 for child 1 -/
example : (setList demo 0 (.slice ⟨some 2, some 3, none⟩) [.item 6]).1.kids 0 = [1, 2, 6, 5] := by
  have hr : setList demo 0 (.slice ⟨some 2, some 3, none⟩) [.item 6] = ((setList demo 0 (.slice ⟨some 2, some 3, none⟩) [.item 6]).1, .ok [6]) := rfl
  obtain ⟨_, b, _⟩ := C10_set_list demo_tidy.reach (p := 0) (olds := [3]) (by decide) (by rfl) (by decide) ⟨by decide, by decide, by
      intro i hi; simp at hi; subst hi
      exact ⟨by decide, by decide, fun b => by
        have := below_leaf (by decide) b; simp at this⟩, by simp, by
      intro n a o ha ho
      cases n with
      | zero => simp at ha ho; subst ha ho; decide
      | succ n => simp at ha, by
      intro a ha k; simp at ha; subst ha; simp [argTag, show demo.tag 6 = .other 1 by decide]⟩ hr
  rw [b]; decide

/-- C10, the code against the claim: when the target denotes one child, the list is not taken for its place: the children replaced are those at the positions which the CHILDREN OF THE TARGET have below it.
Here `t[3] = [6]` (the last child has one child itself) puts the item 6 into position 0. -/
theorem C10_set_list_single_wrong : (let h := (move demo 1 none).1
    let r := setList h 0 (.int 3) [.item 6]
    h.kids 0 = [2, 3, 5, 1] ∧ h.kids 1 = [4] ∧ r.2 = .ok [6] ∧ r.1.kids 0 = [6, 3, 5, 1] ∧ r.1.par 2 = none) := by decide +kernel

/-- C10, the code against the claim: if the tag of the new item is the integer used as the index, the index is taken for a family: `t[1] = iTree(1)` appends the item and leaves child 1 where it is. -/
theorem C10_int_tag_wrong : (let n := newItem demo (.int 1) .noValue [] 0#6
    n.2 = .ok 7 ∧ (setItem n.1 0 (.int 1) (.item 7)).2 = .ok 7 ∧ (setItem n.1 0 (.int 1) (.item 7)).1.kids 0 = [1, 2, 3, 5, 7]) := by decide +kernel

/-- C10, C21, C24. on a structure-protected item that is no link root `t[target] = [x1, x2, …]` raises PermissionError – also for the empty list – and changes nothing. -/
theorem C10_C21_C24_set_list_protected {tg : Target} {as : List Arg} (hpr : h.isProtected p = true) (hlr : h.isLinkRoot p = false) : setList h p tg as = (h, .error .permission) := by
  simp [setList, guardPlace, hpr, hlr]

/-- C10, C24. if `t[target]` raises on an unprotected item, `t[target] = [x1, x2, …]` raises the same and changes nothing. -/
theorem C10_C24_set_list_missing {tg : Target} {as : List Arg} {e : Err} (hpr : h.isProtected p = false) (hg : getItem h p tg = .error e) : setList h p tg as = (h, .error e) := by
  simp [setList, guardPlace, hpr, hg]

example : (let h := (setTreeReadOnly demo 0).1
    (setList h 0 (.slice ⟨some 2, some 3, none⟩) [.item 6]).2 = .error .permission) := by decide +kernel
example : (setList demo 0 (.int 9) [.item 6]).2 = .error .index := by decide +kernel

/-! ### remove with several items -/

theorem removeCheck_ok : ∀ (l : List Id) (_ : WF h) (_ : h.isLinkRoot p = false), (∀ c ∈ l, c ∈ h.kids p) → removeCheck h p l = none := by
  intro l W hpr
  induction l with
  | nil => intro _; rfl
  | cons x xs ih =>
    intro hk
    obtain ⟨r, r1, r2, _⟩ := W.kid_parent p x (hk x (by simp))
    simp [removeCheck, r1, r2, hpr, ih (fun c hc => hk c (by simp [hc]))]

theorem drop_eq_filter {l : List Id} (hn : l.Nodup) {n : Nat} {x : Id} (hx : l[n]? = some x) : l.take n ++ l.drop (n + 1) = l.filter fun c => c ≠ x := by
  rw [← List.eraseIdx_eq_take_drop_succ]
  have hlen := (List.getElem?_eq_some_iff.1 hx).1
  have e : l = l.take n ++ x :: l.drop (n + 1) := by
    conv => lhs; rw [← List.take_append_drop n l, List.drop_eq_getElem_cons hlen]
    rw [(List.getElem?_eq_some_iff.1 hx).2]
  rw [List.eraseIdx_eq_take_drop_succ]
  conv => rhs; rw [e]
  rw [e] at hn
  have h1 := List.nodup_append.1 hn
  have h2 := List.nodup_cons.1 h1.2.1
  rw [List.filter_append, List.filter_cons]
  simp only [ne_eq, not_true_eq_false, decide_false, Bool.false_eq_true, if_false]
  congr 1
  · rw [List.filter_eq_self.2]
    intro c hc; simp only [decide_eq_true_eq]; exact h1.2.2 c hc x (by simp)
  · rw [List.filter_eq_self.2]
    intro c hc; simp only [decide_eq_true_eq]; rintro rfl; exact h2.1 hc

theorem removeLoop_spec : ∀ (l : List Id) {h : Heap}, Core h → h.isProtected p = false → l.Nodup → (∀ c ∈ l, c ∈ h.kids p) →
    ∃ h', removeLoop h p l = (h', .ok ()) ∧ h'.kids p = ((h.kids p).filter fun c => c ∉ l) ∧ (∀ c ∈ l, h'.par c = none) ∧ Frame h h' (· = p) (· ∈ l) ∧ Core h' := by
  intro l
  induction l with
  | nil => intro h C _ _ _; exact ⟨h, rfl, by simp, by simp, Frame.refl h _ _, C⟩
  | cons x xs ih =>
    intro h C hpr hnd hk
    have hxk := hk x (by simp)
    obtain ⟨hx1, hx2⟩ := List.nodup_cons.1 hnd
    obtain ⟨m, hm⟩ := List.getElem?_of_mem hxk
    obtain ⟨h1, a, b, c, d, _, C1⟩ := delByItem_succ C hpr hm
    have hlt := C.wf.lt_of_kids (List.ne_nil_of_mem hxk)
    rw [drop_eq_filter (C.wf.kids_nodup p) hm] at b
    obtain ⟨h2, e1, e2, e3, e4, e5⟩ := ih C1 (by simp only [Heap.isProtected]; rw [d.flags p hlt]; exact hpr) hx2 (by
      intro c hc
      rw [b, List.mem_filter]
      exact ⟨hk c (by simp [hc]), by simp only [ne_eq, decide_eq_true_eq]; rintro rfl; exact hx1 hc⟩)
    have hxl : x < h1.next := Nat.lt_of_lt_of_le (C.wf.kids_lt _ _ hxk) d.next
    refine ⟨h2, by simp only [removeLoop, a]; exact e1, ?_, ?_, ?_, e5⟩
    · rw [e2, b, List.filter_filter]
      apply List.filter_congr
      intro c _
      by_cases hc : c = x <;> simp [hc]
    · intro c' hc'
      rcases List.mem_cons.1 hc' with rfl | hc'
      · rw [e4.par c' hxl hx1]; exact c
      · exact e3 c' hc'
    · exact Frame.trans (d.mono (fun _ h => h) (by rintro i rfl; simp)) (e4.mono (fun _ h => h) (by intro i hi; simp [hi]))

/-- C09. `t.remove(items)` with distinct children of an unprotected item returns the items; they lose their parent, the other children keep their order and nothing else changes. -/
theorem C09_remove_many (R : Reach ms h) {l : List Id} (hpr : h.isProtected p = false) (hlr : h.isLinkRoot p = false) (hn : l.Nodup) (hk : ∀ c ∈ l, c ∈ h.kids p) :
    ∃ h', removeMany h p l = (h', .ok l) ∧ h'.kids p = ((h.kids p).filter fun c => c ∉ l) ∧ (∀ c ∈ l, h'.par c = none) ∧ Frame h h' (· = p) (· ∈ l) ∧ Aligned h' p := by
  obtain ⟨h', a, b, c, d, C⟩ := removeLoop_spec l.reverse R.core hpr (by rw [List.nodup_reverse]; exact hn) (by simpa using hk)
  refine ⟨h', ?_, by simpa using b, by simpa using c, by simpa using d, C.wf.aligned p⟩
  simp only [removeMany, removeCheck_ok l R.core.wf hlr hk, a, Except.map]

example : ∃ h', removeMany demo 0 [5, 1, 2] = (h', .ok [5, 1, 2]) ∧ h'.kids 0 = [3] := by
  obtain ⟨h', a, b, _⟩ := C09_remove_many demo_tidy.reach (p := 0) (l := [5, 1, 2]) (by decide) (by decide) (by decide) (by decide)
  exact ⟨h', a, by rw [b]; decide⟩

/-- C09, C24. `t.remove(items)` looks at all items first: if one of them is no child of `t`, nothing is removed. -/
theorem C09_C24_remove_many_foreign {l : List Id} {x : Id} (hx : x ∈ l) (hp : h.par x ≠ some p) : ∃ e, removeMany h p l = (h, .error e) := by
  have : ∃ e, removeCheck h p l = some e := by
    induction l with
    | nil => simp at hx
    | cons y ys ih =>
      cases hy : (h.node y).parent with
      | none => exact ⟨.type, by simp [removeCheck, hy]⟩
      | some r =>
        by_cases hr : r.pid = p
        · rcases List.mem_cons.1 hx with rfl | hx
          · exact (hp (by simp [Heap.par, hy, hr])).elim
          · obtain ⟨e, he⟩ := ih hx
            by_cases hb : h.isLinkRoot p && h.linkLoaded p && isForeign h y
            · exact ⟨.permission, by simp only [removeCheck, hy, hr, if_true, hb]⟩
            · exact ⟨e, by simp only [removeCheck, hy, hr, if_true, hb]; exact he⟩
        · exact ⟨.value, by simp [removeCheck, hy, hr]⟩
  obtain ⟨e, he⟩ := this
  exact ⟨e, by simp only [removeMany, he]⟩

example : ∃ e, removeMany demo 0 [1, 4, 2] = (demo, .error e) := C09_C24_remove_many_foreign (x := 4) (by decide) (by decide)

end ITree
