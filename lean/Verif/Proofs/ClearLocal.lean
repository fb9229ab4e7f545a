import Verif.Spec.ClearLocal
import Verif.Model.ClearLocal
import Verif.Proofs.Dump
import Verif.Props.Removing
/-
The loop of `clear(local_only=True)` computes `swept`.
-/
namespace ITree

/-- what holds after the loop -/
structure Swept (h h' : Heap) (p : Id) (gone : List Id) : Prop where
  next : h'.next = h.next
  flags : ∀ i, h'.flags i = h.flags i
  tag : ∀ i, h'.tag i = h.tag i
  value : ∀ i, (h'.node i).value = (h.node i).value
  link : ∀ i, (h'.node i).link = (h.node i).link
  kids : ∀ i, i ≠ p → h'.kids i = h.kids i
  par_gone : ∀ x ∈ gone, h'.par x = none
  par : ∀ i, i ∉ gone → h'.par i = h.par i
  keeps : Keeps h h'

theorem Swept.ofCEq {h h' : Heap} (H : CEq h h') (C : Core h) (p : Id) : Swept h h' p [] where
  next := H.next
  flags i := by simp only [Heap.flags]; rw [H.node i]
  tag i := by simp only [Heap.tag]; rw [H.node i]
  value i := by rw [H.node i]
  link i := by rw [H.node i]
  kids i _ := H.kids i
  par_gone := by simp
  par i _ := H.par' i
  keeps := H.keeps C

theorem Swept.ofDetach {h h' : Heap} {p x : Id} {n : Nat} (D : DetachRel h h' p x n) (C : Core h) : Swept h h' p [x] where
  next := D.next
  flags := D.flags
  tag := D.tag
  value := D.value
  link := D.link
  kids := D.kids_o
  par_gone y hy := by simp at hy; subst hy; rw [D.par', if_pos rfl]
  par i hi := by simp at hi; rw [D.par', if_neg hi]
  keeps := D.keeps C

theorem Swept.trans {a b c : Heap} {p : Id} {l m : List Id} (A : Swept a b p l) (B : Swept b c p m) : Swept a c p (l ++ m) where
  next := B.next.trans A.next
  flags i := (B.flags i).trans (A.flags i)
  tag i := (B.tag i).trans (A.tag i)
  value i := (B.value i).trans (A.value i)
  link i := (B.link i).trans (A.link i)
  kids i hi := (B.kids i hi).trans (A.kids i hi)
  par_gone x hx := by
    by_cases hm : x ∈ m
    · exact B.par_gone x hm
    · rw [B.par x hm]; exact A.par_gone x ((List.mem_append.1 hx).resolve_right hm)
  par i hi := by
    rw [List.mem_append, not_or] at hi
    rw [B.par i hi.2, A.par i hi.1]
  keeps := A.keeps.trans B.keeps

theorem Swept.linkLoaded {a b : Heap} {p : Id} {l : List Id} (A : Swept a b p l) (i : Id) : b.linkLoaded i = a.linkLoaded i := by
  simp only [Heap.linkLoaded, A.link]

/-- the result of the loop for an outcome of `swept` -/
def sweptRes (b : Bool) : Except Err Unit := if b then .error .permission else .ok ()

/-- deleting a child of a link root -/
theorem delByItem_root {h : Heap} (C : Core h) {p x : Id} (hl : h.isLinkRoot p = true) (hpr : h.isProtected p = true) {n : Nat} (hx : (h.kids p)[n]? = some x) :
    if h.linkLoaded p && isForeign h x then (delByItem h p x).2 = .error .permission ∧ CEq h (delByItem h p x).1
    else (delByItem h p x).2 = .ok x ∧ DetachRel h (delByItem h p x).1 p x n := by
  have hxm := List.mem_of_getElem? hx
  obtain ⟨m, e1, e2⟩ := idx_child C.wf hxm
  have hmn : m = n := by rw [← nodup_idxOf_unique (C.wf.kids_nodup p) hx, nodup_idxOf_unique (C.wf.kids_nodup p) e2]
  subst hmn
  have H := idx_ceq h x
  have W1 := H.wf C.wf
  have hn := (List.getElem?_eq_some_iff.1 hx).1
  have hg : guardDel (h.idx x).1 p = .ok (h.linkLoaded p) := by
    have a : (h.idx x).1.isProtected p = true := by simp only [Heap.isProtected, Heap.flags]; rw [H.node p]; exact hpr
    have b : (h.idx x).1.isLinkRoot p = true := by simp only [Heap.isLinkRoot, Heap.flags]; rw [H.node p]; exact hl
    have c : (h.idx x).1.linkLoaded p = h.linkLoaded p := by simp only [Heap.linkLoaded]; rw [H.node p]
    simp [guardDel, a, b, c]
  have hfo : isForeign (h.idx x).1 x = isForeign h x := by simp only [isForeign, Heap.flags]; rw [H.node x]
  split
  · next hf =>
    have hne : h.kids p ≠ [] := by intro e; rw [e] at hx; simp at hx
    have hd : delInt (h.idx x).1 p (m : Int) = ((h.idx x).1, .error .permission) := by
      unfold delInt
      have hb : (h.linkLoaded p && isForeign (h.idx x).1 x) = true := by rw [hfo]; exact hf
      simp only [hg, H.kids, hne, if_false, pyPos_nat hn, hx, hb, if_true]
    have hr : delByItem h p x = ((h.idx x).1, .error .permission) := by simp only [delByItem, e1]; exact hd
    rw [hr]
    exact ⟨rfl, H⟩
  · next hf =>
    obtain ⟨h', e⟩ := delInt_succ (h := (h.idx x).1) (p := p) (k := (m : Int)) (n := m) (x := x) W1 (fun c _ => H.noCover C.nocov c) hg
      (by rw [H.kids]; exact pyPos_nat hn) (by rw [H.kids]; exact hx) (by rw [hfo]; simpa using hf)
    have e' : delByItem h p x = (h', .ok x) := by simp only [delByItem, e1]; exact e
    obtain ⟨_, D⟩ := delByItem_ok C.wf C.nocov hx e'
    rw [e']
    exact ⟨rfl, D⟩

theorem foreign_eq {h : Heap} {x : Id} (hp : (h.flags x).has Flags.placeholder = false) : isForeign h x = (h.flags x).has Flags.linked := by
  simp only [isForeign]
  revert hp
  generalize h.flags x = f
  revert f; decide

section
variable {linked ph : Id → Bool} {loaded add : Bool} {x y : Id} {r : List Id}
theorem swept_linked (c1 : (linked x && add) = true) : swept linked ph loaded add (x :: r) =
    ((swept linked ph loaded false r).1, x :: (swept linked ph loaded false r).2.1, (swept linked ph loaded false r).2.2) := by
  cases r <;> simp only [swept, c1, if_true]
theorem swept_ph (c1 : (linked x && add) = false) (c2 : ph x = true) : swept linked ph loaded add (x :: r) =
    ((swept linked ph loaded true r).1, x :: (swept linked ph loaded true r).2.1, (swept linked ph loaded true r).2.2) := by
  cases r <;> simp only [swept, c1, c2, if_true, Bool.false_eq_true, if_false]
theorem swept_stop (c1 : (linked x && add) = false) (c2 : ph x = false) (c3 : (loaded && linked x) = true) : swept linked ph loaded add (x :: r) = ([], x :: r, true) := by
  cases r <;> simp only [swept, c1, c2, c3, if_true, Bool.false_eq_true, if_false]
theorem swept_last (c1 : (linked x && add) = false) (c2 : ph x = false) (c3 : (loaded && linked x) = false) : swept linked ph loaded add [x] = ([x], [], false) := by
  simp only [swept, c1, c2, c3, Bool.false_eq_true, if_false]
theorem swept_two (c1 : (linked x && add) = false) (c2 : ph x = false) (c3 : (loaded && linked x) = false) : swept linked ph loaded add (x :: y :: r) =
    (x :: (swept linked ph loaded true r).1, y :: (swept linked ph loaded true r).2.1, (swept linked ph loaded true r).2.2) := by
  simp only [swept, c1, c2, c3, Bool.false_eq_true, if_false]
end

theorem clearLocalLoop_spec {p : Id} (loaded : Bool) (linked ph : Id → Bool) : ∀ (n : Nat) (A r : List Id) (add : Bool) (h : Heap) (td : List (Tag × Int)), Core h →
    h.isLinkRoot p = true → h.isProtected p = true → h.linkLoaded p = loaded → (∀ i, (h.flags i).has Flags.linked = linked i) → (∀ i, (h.flags i).has Flags.placeholder = ph i) →
    h.kids p = A ++ r → r.length < n → (∀ x ∈ r, ∃ k : Int, -1 ≤ k ∧ tdGet (h.tag x) td = some k) →
    ∃ h', clearLocalLoop p n h A.length add td = (h', sweptRes (swept linked ph loaded add r).2.2) ∧ h'.kids p = A ++ (swept linked ph loaded add r).2.1 ∧
      Swept h h' p (swept linked ph loaded add r).1
  | 0, _, r, _, _, _, _, _, _, _, _, _, _, hlen, _ => by simp at hlen
  | n + 1, A, [], add, h, td, C, _, _, _, _, _, hk, _, _ => by
    refine ⟨h, ?_, by simpa [swept] using hk, Swept.ofCEq (CEq.refl h) C p⟩
    have : (h.kids p)[A.length]? = none := by rw [hk]; simp
    simp only [clearLocalLoop, this, swept, sweptRes, Bool.false_eq_true, if_false]
  | n + 1, A, x :: r, add, h, td, C, hl, hpr, hld, hL, hP, hk, hlen, htd => by
    have hx : (h.kids p)[A.length]? = some x := by rw [hk]; simp
    obtain ⟨k, hk1, hk2⟩ := htd x (by simp)
    obtain ⟨td', b1, b2⟩ := bumpTag_spec _ td k hk2
    obtain ⟨ref, r1, r2, r3, r4, r5⟩ := C.wf.kid_parent p x (List.mem_of_getElem? hx)
    have H : CEq h (h.setParent x (some (ref.setC .fam (k + 1)))) := CEq.setC r1 .fam (k + 1) (by omega)
    have S1 := Swept.ofCEq H C p
    have htd' : ∀ y ∈ r, ∃ k : Int, -1 ≤ k ∧ tdGet (h.tag y) td' = some k := by
      intro y hy
      rw [b2]
      by_cases e : h.tag y = h.tag x
      · exact ⟨k + 1, by omega, by rw [if_pos e]⟩
      · rw [if_neg e]; exact htd y (by simp [hy])
    simp only [clearLocalLoop, hx, b1, r1, r3, Bool.false_eq_true, if_false]
    generalize h.setParent x (some (ref.setC .fam (k + 1))) = h1 at H S1 ⊢
    have C1 := S1.keeps.core
    have hk1 : h1.kids p = A ++ x :: r := by rw [H.kids, hk]
    have hl1 : h1.isLinkRoot p = true := by simp only [Heap.isLinkRoot, S1.flags]; exact hl
    have hpr1 : h1.isProtected p = true := by simp only [Heap.isProtected, S1.flags]; exact hpr
    have hld1 : h1.linkLoaded p = loaded := by rw [S1.linkLoaded, hld]
    have hL1 : ∀ i, (h1.flags i).has Flags.linked = linked i := fun i => by rw [S1.flags, hL]
    have hP1 : ∀ i, (h1.flags i).has Flags.placeholder = ph i := fun i => by rw [S1.flags, hP]
    simp only [hL1, hP1]
    have hlenA : (A ++ [x]).length = A.length + 1 := by simp
    by_cases c1 : (linked x && add) = true
    · obtain ⟨h', e1, e2, e3⟩ := clearLocalLoop_spec loaded linked ph n (A ++ [x]) r false h1 td' C1 hl1 hpr1 hld1 hL1 hP1 (by simp [hk1]) (by simp at hlen; omega) (by simpa only [S1.tag] using htd')
      rw [hlenA] at e1
      refine ⟨h', ?_, ?_, ?_⟩
      · simp only [c1, if_true, e1, swept_linked c1]
      · simp only [e2, swept_linked c1, List.append_assoc, List.singleton_append]
      · simpa only [swept_linked c1, List.nil_append] using S1.trans e3
    · simp only [Bool.not_eq_true] at c1
      by_cases c2 : ph x = true
      · obtain ⟨h', e1, e2, e3⟩ := clearLocalLoop_spec loaded linked ph n (A ++ [x]) r true h1 td' C1 hl1 hpr1 hld1 hL1 hP1 (by simp [hk1]) (by simp at hlen; omega) (by simpa only [S1.tag] using htd')
        rw [hlenA] at e1
        refine ⟨h', ?_, ?_, ?_⟩
        · simp only [c1, c2, if_true, e1, swept_ph c1 c2, Bool.false_eq_true, if_false]
        · simp only [e2, swept_ph c1 c2, List.append_assoc, List.singleton_append]
        · simpa only [swept_ph c1 c2, List.nil_append] using S1.trans e3
      · simp only [Bool.not_eq_true] at c2
        have hx1 : (h1.kids p)[A.length]? = some x := by rw [hk1]; simp
        have hd := delByItem_root C1 hl1 hpr1 hx1
        rw [foreign_eq (by rw [hP1]; exact c2), hld1, hL1] at hd
        by_cases c3 : (loaded && linked x) = true
        · rw [if_pos c3] at hd
          have S2 := Swept.ofCEq hd.2 C1 p
          refine ⟨(delByItem h1 p x).1, ?_, ?_, ?_⟩
          · simp only [c1, c2, if_true, swept_stop c1 c2 c3, Bool.false_eq_true, if_false, sweptRes, hd.1]
          · simp only [hd.2.kids, hk1, swept_stop c1 c2 c3]
          · simpa only [swept_stop c1 c2 c3, List.nil_append] using S1.trans S2
        · rw [if_neg c3] at hd
          simp only [Bool.not_eq_true] at c3
          have S2 := Swept.ofDetach hd.2 C1
          have S12 := S1.trans S2
          have hk2 : (delByItem h1 p x).1.kids p = A ++ r := by rw [hd.2.kids_p, hk1]; simp [List.eraseIdx_append_of_length_le]
          simp only [c1, c2, Bool.false_eq_true, if_false, hd.1]
          generalize (delByItem h1 p x).1 = h2 at hd hk2 S2 S12 ⊢
          match r, hk2, htd', hlen, hx1 with
          | [], hk2, htd', hlen, _ =>
            refine ⟨h2, ?_, ?_, ?_⟩
            · cases n with
              | zero => simp only [clearLocalLoop, swept_last c1 c2 c3, Bool.false_eq_true, if_false, sweptRes]
              | succ n =>
                have : (h2.kids p)[A.length + 1]? = none := by rw [hk2]; simp
                simp only [clearLocalLoop, this, swept_last c1 c2 c3, Bool.false_eq_true, if_false, sweptRes]
            · simpa only [swept_last c1 c2 c3] using hk2
            · simpa only [swept_last c1 c2 c3, List.nil_append] using S12
          | y :: s, hk2, htd', hlen, _ =>
            have hlenA : (A ++ [y]).length = A.length + 1 := by simp
            obtain ⟨h', e1, e2, e3⟩ := clearLocalLoop_spec loaded linked ph n (A ++ [y]) s true h2 td' S12.keeps.core (by simp only [Heap.isLinkRoot, S12.flags]; exact hl)
              (by simp only [Heap.isProtected, S12.flags]; exact hpr) (by rw [S12.linkLoaded, hld]) (fun i => by rw [S12.flags, hL]) (fun i => by rw [S12.flags, hP]) (by simp [hk2])
              (by simp at hlen; omega) (fun z hz => by rw [S12.tag]; exact htd' z (by simp [hz]))
            rw [hlenA] at e1
            refine ⟨h', ?_, ?_, ?_⟩
            · simp only [e1, swept_two c1 c2 c3]
            · simp only [e2, swept_two c1 c2 c3, List.append_assoc, List.singleton_append]
            · simpa only [swept_two c1 c2 c3, List.nil_append, List.cons_append] using S12.trans e3

end ITree
