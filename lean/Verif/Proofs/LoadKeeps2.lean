import Verif.Proofs.Nested2
import Verif.Proofs.Ready3
import Verif.Spec.History
/-
The `load_links` calls covered by the histories keep everything consistent.
-/
namespace ITree

/-- the covered `load_links` calls keep everything consistent -/
theorem loadLinks_keeps {fe : FileEnv} {force : Bool} {n : Nat} {h : Heap} {p : Id} (C : Core h) (M : MayLoad fe force n h p) : LKeeps h (loadLinks (linkEnv fe) force n h p).1 := by
  obtain ⟨hp, lk, hl, ho, hM⟩ := M
  cases n with
  | zero => exact LKeeps.refl C
  | succ n =>
    rcases hM with hM | ⟨hk, ha, hpl⟩ | ⟨Z, m, D, hN⟩ | ⟨Z, F, rfl, m, hm, hR⟩
    rotate_left 2
    · exact (nested_loads fe force (n + 1) m h p D C Z hN).1
    · obtain ⟨h', b, lk, e, T, _⟩ := ready_loads fe m (n + 1) h _ p C Z F hR hm
      rw [e]
      exact T.keeps
    · have K := loadActive_keeps fe C hl ho force
      simp only [loadLinks, hl] at hM ⊢
      generalize loadActive (linkEnv fe) h p lk force = a at hM K ⊢
      obtain ⟨a1, er | b⟩ := a
      · cases hM
      · cases b with
        | false => exact K
        | true =>
          simp only at hM
          generalize (linkEnv fe).find a1 p = f at hM
          obtain ⟨f1, er | s⟩ := f
          · cases hM
          · exact absurd hM (by
              intro e
              simp only [takeOver] at e
              generalize numberKids f1 p = r at e
              obtain ⟨r1, er | l⟩ := r
              · cases e
              · simp only at e
                generalize loadLoop (loadLinks (linkEnv fe) force n) p s (dropKids r1 p) ((dropKids r1 p).kids s) (localItems r1 l) [] = q at e
                obtain ⟨q1, er | ⟨E', ks⟩⟩ := q <;> simp at e)
    · have hact : loadActive (linkEnv fe) h p lk force = (h, .ok true) := by
        rw [loadActive, if_pos]
        rcases ha with rfl | e
        · rfl
        · simp [e]
      have hfind : (linkEnv fe).find h p = getTarget fe h p := rfl
      obtain ⟨g1, g2⟩ := getTarget_keeps C fe hl ho
      simp only [loadLinks, hl, hact, hfind]
      have K : LKeeps h (getTarget fe h p).1 := by rw [g1]; exact setLink_keeps C p _ fun l => rfl
      have hkk : ∀ i, (getTarget fe h p).1.kids i = h.kids i := fun i => by rw [g1]; exact (setLink_structEq h p _).kids i
      have hfl : ∀ i, (getTarget fe h p).1.flags i = h.flags i := fun i => by rw [g1]; exact setLink_flags h p _ i
      generalize getTarget fe h p = r at *
      obtain ⟨g, e | s⟩ := r
      · exact K
      · exact K.trans (takeOver_keeps K.core (Nat.lt_of_lt_of_le hp K.le) ((hkk p).trans hk) fun c hc => by
          simp only at hkk hfl
          rw [hfl]; rw [hkk] at hc
          exact hpl s (g2 s rfl) c hc).1

end ITree
