import Verif.Proofs.Cache
/-
The recursive halving search for the insertion position in a family.
-/
namespace ITree

theorem roundHalf_bounds {s : Nat} (hs : 2 ≤ s) : 1 ≤ roundHalf s ∧ roundHalf s < s := by
  unfold roundHalf; split
  · omega
  · split <;> omega

/-- reading `idx` of the members of `fam` delivers `pos` whenever it delivers anything -/
def IdxIs (h : Heap) (fam : List Id) (pos : Id → Nat) : Prop :=
  ∀ h', CEq h h' → ∀ y ∈ fam, ∀ i, (h'.idx y).2 = .ok i → i = some (pos y : Int)

theorem IdxIs.ceq {h h' : Heap} {fam pos} (I : IdxIs h fam pos) (H : CEq h h') : IdxIs h' fam pos :=
  fun h'' H' => I h'' (H.trans H')
theorem IdxIs.sub {h : Heap} {fam fam' pos} (I : IdxIs h fam pos) (hs : ∀ y ∈ fam', y ∈ fam) : IdxIs h fam' pos :=
  fun h' H y hy => I h' H y (hs y hy)

theorem famInsIdxAux_ceq (fuel : Nat) : ∀ (h : Heap) (fam : List Id) (k : Int) (last : Nat),
    CEq h (famInsIdxAux fuel h fam k last).1 := by
  induction fuel with
  | zero => intro h fam k last; exact CEq.refl h
  | succ fuel ih =>
    intro h fam k last
    unfold famInsIdxAux
    split
    · exact CEq.refl h
    · dsimp only; split <;> exact idx_ceq _ _
    · dsimp only
      split
      · exact CEq.refl h
      · split
        · split
          · exact (idx_ceq _ _).trans (ih _ _ _ _)
          · exact (idx_ceq _ _).trans (ih _ _ _ _)
        · exact idx_ceq _ _
        · exact idx_ceq _ _

theorem famInsIdxAux_ok (fuel : Nat) : ∀ (h : Heap) (fam : List Id) (k : Int) (last n : Nat) (pos : Id → Nat),
    IdxIs h fam pos → fam.Pairwise (fun a b => pos a < pos b) → (famInsIdxAux fuel h fam k last).2 = .ok n →
    n = last + fam.countP (fun y => (pos y : Int) < k) := by
  induction fuel with
  | zero => intro h fam k last n pos _ _ hok; simp [famInsIdxAux] at hok
  | succ fuel ih =>
    intro h fam k last n pos I P hok
    unfold famInsIdxAux at hok
    split at hok
    · simp at hok
    · next x =>
      dsimp only at hok
      split at hok
      · next i hi =>
        have := I h (CEq.refl h) x (by simp) _ hi
        simp only [Option.some.injEq] at this
        simp only [Except.ok.injEq] at hok
        subst this
        by_cases hlt : (pos x : Int) < k <;> simp [hlt] at hok ⊢ <;> omega
      · simp at hok
      · simp at hok
    · next hne1 hne2 =>
      dsimp only at hok
      have hlen : 2 ≤ fam.length := by
        match fam, hne1, hne2 with
        | [], h1, _ => exact (h1 rfl).elim
        | [a], _, h2 => exact (h2 a rfl).elim
        | a :: b :: r, _, _ => simp
      obtain ⟨b1, b2⟩ := roundHalf_bounds hlen
      generalize roundHalf fam.length = m at hok b1 b2
      split at hok
      · simp at hok
      · next x hx =>
        have hxm : fam[m] = x := by
          have := List.getElem?_eq_some_iff.1 hx; exact this.2
        split at hok
        · next j hj =>
          have hj' := I h (CEq.refl h) x (List.mem_of_getElem? hx) _ hj
          simp only [Option.some.injEq] at hj'
          subst hj'
          have hsplit : fam.countP (fun y => (pos y : Int) < k) =
              (fam.take m).countP (fun y => (pos y : Int) < k) + (fam.drop m).countP (fun y => (pos y : Int) < k) := by
            rw [← List.countP_append, List.take_append_drop]
          have Ptd : (fam.take m ++ fam.drop m).Pairwise (fun a b => pos a < pos b) := by
            rw [List.take_append_drop]; exact P
          have Ptd := List.pairwise_append.1 Ptd
          have hd : fam.drop m = x :: fam.drop (m + 1) := by rw [← hxm]; exact List.drop_eq_getElem_cons (by omega)
          split at hok
          · next hlt =>
            have := ih _ _ _ _ _ pos ((I.ceq (idx_ceq h x)).sub fun y hy => List.mem_of_mem_drop hy) Ptd.2.1 hok
            have hall : (fam.take m).countP (fun y => (pos y : Int) < k) = (fam.take m).length := by
              rw [List.countP_eq_length]
              intro y hy
              have := Ptd.2.2 y hy x (by rw [hd]; simp)
              simp; omega
            rw [List.length_take] at hall
            omega
          · next hge =>
            have := ih _ _ _ _ _ pos ((I.ceq (idx_ceq h x)).sub fun y hy => List.mem_of_mem_take hy) Ptd.1 hok
            have hnone : (fam.drop m).countP (fun y => (pos y : Int) < k) = 0 := by
              rw [List.countP_eq_zero]
              intro y hy
              have hle : pos x ≤ pos y := by
                rw [hd] at hy Ptd
                rcases List.mem_cons.1 hy with rfl | hy
                · exact Nat.le_refl _
                · exact Nat.le_of_lt ((List.pairwise_cons.1 Ptd.2.1).1 y hy)
              simp; omega
            omega
        · simp at hok
        · simp at hok

theorem famInsIdxAux_succ (fuel : Nat) : ∀ (h : Heap) (fam : List Id) (k : Int) (last : Nat),
    (∀ h', CEq h h' → ∀ y ∈ fam, ∃ i, (h'.idx y).2 = .ok (some i)) → fam ≠ [] → fam.length ≤ fuel →
    ∃ n, (famInsIdxAux fuel h fam k last).2 = .ok n := by
  induction fuel with
  | zero => intro h fam k last _ h1 h2; simp at h2; exact (h1 h2).elim
  | succ fuel ih =>
    intro h fam k last I hne hf
    unfold famInsIdxAux
    split
    · exact (hne rfl).elim
    · next x =>
      dsimp only
      obtain ⟨i, hi⟩ := I h (CEq.refl h) x (by simp)
      simp only [hi]; exact ⟨_, rfl⟩
    · next hne1 hne2 =>
      dsimp only
      have hlen : 2 ≤ fam.length := by
        match fam, hne1, hne2 with
        | [], h1, _ => exact (h1 rfl).elim
        | [a], _, h2 => exact (h2 a rfl).elim
        | a :: b :: r, _, _ => simp
      obtain ⟨b1, b2⟩ := roundHalf_bounds hlen
      generalize roundHalf fam.length = m at b1 b2
      have hx : fam[m]? = some fam[m] := List.getElem?_eq_getElem b2
      simp only [hx]
      obtain ⟨i, hi⟩ := I h (CEq.refl h) _ (List.mem_of_getElem? hx)
      simp only [hi]
      split
      · exact ih _ _ _ _ (fun h' H y hy => I h' ((idx_ceq _ _).trans H) y (List.mem_of_mem_drop hy))
          (by simp; omega) (by simp; omega)
      · exact ih _ _ _ _ (fun h' H y hy => I h' ((idx_ceq _ _).trans H) y (List.mem_of_mem_take hy))
          (by simp; exact ⟨by omega, hne⟩) (by simp; omega)

theorem famInsIdx_ceq (h : Heap) (fam k) : CEq h (famInsIdx h fam k).1 := famInsIdxAux_ceq _ _ _ _ _

/-- the position found is the number of family members in front of absolute position `k` -/
theorem famInsIdx_ok {h : Heap} {fam : List Id} {k : Int} {n : Nat} {pos : Id → Nat} (I : IdxIs h fam pos)
    (P : fam.Pairwise (fun a b => pos a < pos b)) (hok : (famInsIdx h fam k).2 = .ok n) :
    n = fam.countP (fun y => (pos y : Int) < k) := by
  have := famInsIdxAux_ok _ _ _ _ _ _ pos I P hok; omega

theorem famInsIdx_succ {h : Heap} {fam : List Id} {k : Int} 
    (I : ∀ h', CEq h h' → ∀ y ∈ fam, ∃ i, (h'.idx y).2 = .ok (some i)) (hne : fam ≠ []) :
    ∃ n, (famInsIdx h fam k).2 = .ok n := famInsIdxAux_succ _ _ _ _ _ I hne (by omega)

end ITree
