import Verif.Spec.Value
import Mathlib.Data.Fintype.EquivFin
import Mathlib.Data.Fintype.Card
/-
`==` on values is an equivalence.
-/
namespace ITree

/-- a map between lists of the same length that never sends two elements to the same one hits every element -/
theorem pigeon {α β : Type} {E : α → β → Prop} {a : List α} {b : List β} (hl : a.length = b.length) (hE : ∀ e ∈ a, ∃ e' ∈ b, E e e')
    (hi : ∀ (i j : Nat) (hi : i < a.length) (hj : j < a.length) (e' : β), e' ∈ b → E a[i] e' → E a[j] e' → i = j) : ∀ e' ∈ b, ∃ e ∈ a, E e e' := by
  have hf : ∀ i : Fin a.length, ∃ j : Fin b.length, E a[i] b[j] := by
    intro i
    obtain ⟨e', h1, h2⟩ := hE a[i] (List.getElem_mem _)
    obtain ⟨j, hj, rfl⟩ := List.getElem_of_mem h1
    exact ⟨⟨j, hj⟩, h2⟩
  choose f hf using hf
  have inj : Function.Injective f := by
    intro i j e
    have a1 := hf i
    have a2 := hf j
    rw [← e] at a2
    exact Fin.ext (hi i j i.2 j.2 _ (List.getElem_mem _) a1 a2)
  have surj : Function.Surjective f := ((Fintype.bijective_iff_injective_and_card f).2 ⟨inj, by simp [hl]⟩).2
  intro e' he'
  obtain ⟨j, hj, rfl⟩ := List.getElem_of_mem he'
  obtain ⟨i, hi⟩ := surj ⟨j, hj⟩
  refine ⟨a[i], List.getElem_mem _, ?_⟩
  have := hf i
  rw [hi] at this
  exact this

/-- `==` is an equivalence on the good values of size below `n` -/
structure EqvBelow (n : Nat) : Prop where
  refl : ∀ a : Val, sizeOf a < n → a.OK → Val.pyEq a a = true
  symm : ∀ a b : Val, sizeOf a < n → sizeOf b < n → a.OK → b.OK → Val.pyEq a b = true → Val.pyEq b a = true
  trans : ∀ a b c : Val, sizeOf a < n → sizeOf b < n → sizeOf c < n → a.OK → b.OK → c.OK → Val.pyEq a b = true → Val.pyEq b c = true → Val.pyEq a c = true

theorem okL_mem : ∀ {l : List Val}, Val.OKL l → ∀ v ∈ l, v.OK
  | [], _, v, hv => by simp at hv
  | w :: l, h, v, hv => by
    simp only [Val.OKL] at h
    rcases List.mem_cons.1 hv with rfl | hv
    · exact h.1
    · exact okL_mem h.2 v hv
theorem okD_mem : ∀ {l : List (Val × Val)}, Val.OKD l → ∀ e ∈ l, e.1.OK ∧ e.2.OK
  | [], _, v, hv => by simp at hv
  | (k, w) :: l, h, v, hv => by
    simp only [Val.OKD] at h
    rcases List.mem_cons.1 hv with rfl | hv
    · exact ⟨h.1, h.2.1⟩
    · exact okD_mem h.2.2 v hv

theorem pyEqList_iff : ∀ (a b : List Val), Val.pyEqList a b = true ↔ List.Forall₂ (fun x y => Val.pyEq x y = true) a b
  | [], [] => by simp [Val.pyEqList]
  | [], _ :: _ => by simp [Val.pyEqList]
  | _ :: _, [] => by simp [Val.pyEqList]
  | x :: xs, y :: ys => by simp [Val.pyEqList, pyEqList_iff xs ys]

theorem pySub_iff (b : List (Val × Val)) : ∀ (a : List (Val × Val)), Val.pySub a b = true ↔ ∀ e ∈ a, Val.pyHas e.1 e.2 b = true
  | [] => by simp [Val.pySub]
  | (k, v) :: a => by simp [Val.pySub, pySub_iff b a]

/-- entries are equal when keys and values are -/
def entEq (e e' : Val × Val) : Prop := Val.pyEq e.1 e'.1 = true ∧ Val.pyEq e.2 e'.2 = true

theorem size_mem {e : Val × Val} {d : List (Val × Val)} (h : e ∈ d) : sizeOf e.1 < sizeOf (Val.dict d) ∧ sizeOf e.2 < sizeOf (Val.dict d) := by
  have := List.sizeOf_lt_of_mem h
  obtain ⟨k, v⟩ := e
  simp only [Prod.mk.sizeOf_spec, Val.dict.sizeOf_spec] at *
  omega

theorem pyHas_iff {n : Nat} (Q : EqvBelow n) {k v : Val} (hk : sizeOf k < n) (ok : k.OK) : ∀ (b : List (Val × Val)), (∀ e ∈ b, sizeOf e.1 < n ∧ e.1.OK) →
    (b.Pairwise fun a b => Val.pyEq a.1 b.1 = false ∧ Val.pyEq b.1 a.1 = false) → (Val.pyHas k v b = true ↔ ∃ e ∈ b, entEq (k, v) e) := by
  intro b
  induction b with
  | nil => intro _ _; simp [Val.pyHas]
  | cons e b ih =>
    intro hs hp
    obtain ⟨k', v'⟩ := e
    rw [List.pairwise_cons] at hp
    obtain ⟨hs1, ok1⟩ := hs (k', v') (by simp)
    simp only [Val.pyHas]
    by_cases hkk : Val.pyEq k k' = true
    · rw [if_pos hkk]
      constructor
      · intro hv; exact ⟨(k', v'), by simp, hkk, hv⟩
      · rintro ⟨e, he, h1, h2⟩
        rcases List.mem_cons.1 he with rfl | he
        · exact h2
        · exfalso
          obtain ⟨hs2, ok2⟩ := hs e (by simp [he])
          have := Q.trans k' k e.1 hs1 hk hs2 ok1 ok ok2 (Q.symm k k' hk hs1 ok ok1 hkk) h1
          rw [(hp.1 e he).1] at this
          cases this
    · rw [if_neg hkk, ih (fun e he => hs e (by simp [he])) hp.2]
      constructor
      · rintro ⟨e, he, h1⟩; exact ⟨e, by simp [he], h1⟩
      · rintro ⟨e, he, h1⟩
        rcases List.mem_cons.1 he with rfl | he
        · exact absurd h1.1 hkk
        · exact ⟨e, he, h1⟩

theorem dictEq_iff {n : Nat} (Q : EqvBelow n) {a b : List (Val × Val)} (ha : sizeOf (Val.dict a) ≤ n) (hb : sizeOf (Val.dict b) ≤ n) (oa : (Val.dict a).OK) (ob : (Val.dict b).OK) :
    Val.pyEq (.dict a) (.dict b) = true ↔ a.length = b.length ∧ ∀ e ∈ a, ∃ e' ∈ b, entEq e e' := by
  simp only [Val.OK] at oa ob
  simp only [Val.pyEq, Bool.and_eq_true, beq_iff_eq, pySub_iff]
  refine and_congr_right fun _ => forall_congr' fun e => imp_congr_right fun he => ?_
  exact pyHas_iff Q (Nat.lt_of_lt_of_le (size_mem he).1 ha) (okD_mem oa.1 e he).1 b
    (fun e' he' => ⟨Nat.lt_of_lt_of_le (size_mem he').1 hb, (okD_mem ob.1 e' he').1⟩) ob.2

theorem eqvBelow : ∀ n, EqvBelow n := by
  intro n
  induction n with
  | zero => exact ⟨fun a h => by omega, fun a b h => by omega, fun a b c h => by omega⟩
  | succ n Q =>
    have lt : ∀ {v : Val} {l : List Val}, v ∈ l → sizeOf (Val.list l) < n + 1 → sizeOf v < n := by
      intro v l hv hl
      have := List.sizeOf_lt_of_mem hv
      simp only [Val.list.sizeOf_spec] at hl
      omega
    refine ⟨?_, ?_, ?_⟩
    · intro a hs ok
      cases a with
      | list l =>
        simp only [Val.OK] at ok
        simp only [Val.pyEq, pyEqList_iff, List.forall₂_same]
        exact fun v hv => Q.refl v (lt hv hs) (okL_mem ok v hv)
      | dict d =>
        rw [dictEq_iff Q (by omega) (by omega) ok ok]
        simp only [Val.OK] at ok
        refine ⟨rfl, fun e he => ⟨e, he, Q.refl _ ?_ (okD_mem ok.1 e he).1, Q.refl _ ?_ (okD_mem ok.1 e he).2⟩⟩
        · have := size_mem he; omega
        · have := size_mem he; omega
      | model k v =>
        simp only [Val.OK] at ok
        simp only [Val.model.sizeOf_spec] at hs
        simp [Val.pyEq, Q.refl v (by omega) ok]
      | _ => simp [Val.pyEq]
    · intro a b ha hb oa ob h
      cases a with
      | list l =>
        cases b with
        | list m =>
          simp only [Val.OK] at oa ob
          simp only [Val.pyEq, pyEqList_iff] at h ⊢
          have hm : List.Forall₂ (fun x y => x ∈ l ∧ y ∈ m ∧ Val.pyEq x y = true) l m := by
            rw [List.forall₂_iff_get] at h ⊢
            exact ⟨h.1, fun i h1 h2 => ⟨List.get_mem _ _, List.get_mem _ _, h.2 i h1 h2⟩⟩
          exact (hm.imp fun {x y} hxy => Q.symm x y (lt hxy.1 ha) (lt hxy.2.1 hb) (okL_mem oa x hxy.1) (okL_mem ob y hxy.2.1) hxy.2.2).flip
        | _ => simp [Val.pyEq] at h
      | dict d =>
        cases b with
        | dict e =>
          rw [dictEq_iff Q (by omega) (by omega) oa ob] at h
          rw [dictEq_iff Q (by omega) (by omega) ob oa]
          simp only [Val.OK] at oa ob
          refine ⟨h.1.symm, fun x hx => ?_⟩
          have szd : ∀ y ∈ d, sizeOf y.1 < n ∧ sizeOf y.2 < n := fun y hy => by have := size_mem hy; omega
          have sze : ∀ y ∈ e, sizeOf y.1 < n ∧ sizeOf y.2 < n := fun y hy => by have := size_mem hy; omega
          obtain ⟨y, hy, hxy⟩ := pigeon h.1 h.2 (fun i j hi hj x' hx' h1 h2 => by
            by_contra hne
            have P := List.pairwise_iff_getElem.1 oa.2
            have mi : d[i] ∈ d := List.getElem_mem _
            have mj : d[j] ∈ d := List.getElem_mem _
            have s1 := Q.symm _ _ (szd _ mj).1 (sze _ hx').1 (okD_mem oa.1 _ mj).1 (okD_mem ob.1 _ hx').1 h2.1
            have t1 := Q.trans _ _ _ (szd _ mi).1 (sze _ hx').1 (szd _ mj).1 (okD_mem oa.1 _ mi).1 (okD_mem ob.1 _ hx').1 (okD_mem oa.1 _ mj).1 h1.1 s1
            rcases Nat.lt_or_gt_of_ne hne with hlt | hlt
            · rw [(P i j hi hj hlt).1] at t1; cases t1
            · rw [(P j i hj hi hlt).2] at t1; cases t1) x hx
          exact ⟨y, hy, Q.symm _ _ (szd _ hy).1 (sze _ hx).1 (okD_mem oa.1 _ hy).1 (okD_mem ob.1 _ hx).1 hxy.1,
            Q.symm _ _ (szd _ hy).2 (sze _ hx).2 (okD_mem oa.1 _ hy).2 (okD_mem ob.1 _ hx).2 hxy.2⟩
        | _ => simp [Val.pyEq] at h
      | model k v =>
        cases b with
        | model k' w =>
          simp only [Val.OK] at oa ob
          simp only [Val.model.sizeOf_spec] at ha hb
          simp only [Val.pyEq, Bool.and_eq_true, beq_iff_eq] at h ⊢
          exact ⟨h.1.symm, Q.symm v w (by omega) (by omega) oa ob h.2⟩
        | _ => simp [Val.pyEq] at h
      | _ => cases b <;> simp [Val.pyEq] at h ⊢ <;> (try exact h.symm)
    · intro a b c ha hb hc oa ob oc h1 h2
      cases a with
      | list l =>
        cases b with
        | list m =>
          cases c with
          | list o =>
            simp only [Val.OK] at oa ob oc
            simp only [Val.pyEq, pyEqList_iff, List.forall₂_iff_get] at h1 h2 ⊢
            refine ⟨h1.1.trans h2.1, fun i p q => ?_⟩
            have r : i < m.length := by rw [← h1.1]; exact p
            have ml : l.get ⟨i, p⟩ ∈ l := List.get_mem _ _
            have mm : m.get ⟨i, r⟩ ∈ m := List.get_mem _ _
            have mo : o.get ⟨i, q⟩ ∈ o := List.get_mem _ _
            exact Q.trans _ _ _ (lt ml ha) (lt mm hb) (lt mo hc) (okL_mem oa _ ml) (okL_mem ob _ mm) (okL_mem oc _ mo) (h1.2 i p r) (h2.2 i r q)
          | _ => simp [Val.pyEq] at h2
        | _ => simp [Val.pyEq] at h1
      | dict d =>
        cases b with
        | dict e =>
          cases c with
          | dict f =>
            rw [dictEq_iff Q (by omega) (by omega) oa ob] at h1
            rw [dictEq_iff Q (by omega) (by omega) ob oc] at h2
            rw [dictEq_iff Q (by omega) (by omega) oa oc]
            simp only [Val.OK] at oa ob oc
            refine ⟨h1.1.trans h2.1, fun x hx => ?_⟩
            obtain ⟨y, hy, hxy⟩ := h1.2 x hx
            obtain ⟨z, hz, hyz⟩ := h2.2 y hy
            have sx := size_mem hx
            have sy := size_mem hy
            have sz := size_mem hz
            exact ⟨z, hz, Q.trans _ _ _ (by omega) (by omega) (by omega) (okD_mem oa.1 x hx).1 (okD_mem ob.1 y hy).1 (okD_mem oc.1 z hz).1 hxy.1 hyz.1,
              Q.trans _ _ _ (by omega) (by omega) (by omega) (okD_mem oa.1 x hx).2 (okD_mem ob.1 y hy).2 (okD_mem oc.1 z hz).2 hxy.2 hyz.2⟩
          | _ => simp [Val.pyEq] at h2
        | _ => simp [Val.pyEq] at h1
      | model k v =>
        cases b with
        | model k' w =>
          cases c with
          | model k'' u =>
            simp only [Val.OK] at oa ob oc
            simp only [Val.model.sizeOf_spec] at ha hb hc
            simp only [Val.pyEq, Bool.and_eq_true, beq_iff_eq] at h1 h2 ⊢
            exact ⟨h1.1.trans h2.1, Q.trans v w u (by omega) (by omega) (by omega) oa ob oc h1.2 h2.2⟩
          | _ => simp [Val.pyEq] at h2
        | _ => simp [Val.pyEq] at h1
      | noValue => cases b <;> cases c <;> simp [Val.pyEq] at h1 h2 ⊢
      | none => cases b <;> cases c <;> simp [Val.pyEq] at h1 h2 ⊢
      | str s => cases b <;> cases c <;> simp [Val.pyEq] at h1 h2 ⊢ <;> exact h1.trans h2
      | obj s => cases b <;> cases c <;> simp [Val.pyEq] at h1 h2 ⊢ <;> exact h1.trans h2
      | bool s => cases b <;> cases c <;> simp [Val.pyEq] at h1 h2 ⊢ <;> grind
      | int s => cases b <;> cases c <;> simp [Val.pyEq] at h1 h2 ⊢ <;> grind

theorem pyEq_refl {a : Val} (ok : a.OK) : Val.pyEq a a = true := (eqvBelow _).refl a (Nat.lt_succ_self _) ok
theorem pyEq_symm {a b : Val} (oa : a.OK) (ob : b.OK) (h : Val.pyEq a b = true) : Val.pyEq b a = true :=
  (eqvBelow (sizeOf a + sizeOf b + 1)).symm a b (by omega) (by omega) oa ob h
theorem pyEq_trans {a b c : Val} (oa : a.OK) (ob : b.OK) (oc : c.OK) (h1 : Val.pyEq a b = true) (h2 : Val.pyEq b c = true) : Val.pyEq a c = true :=
  (eqvBelow (sizeOf a + sizeOf b + sizeOf c + 1)).trans a b c (by omega) (by omega) (by omega) oa ob oc h1 h2

end ITree
