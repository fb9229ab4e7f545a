import Verif.Model.Flags
import Verif.Spec.Values
/-
Helper lemmas on Python dicts and lists used as values.
-/
namespace ITree

theorem pyEq_symm_hash : ∀ (a b : Val), a.hashable = true → b.hashable = true → Val.pyEq a b = Val.pyEq b a := by
  intro a b ha hb
  cases a <;> cases b <;> simp [Val.hashable] at ha hb <;> simp [Val.pyEq, Bool.beq_comm] <;>
    (try rename_i x y) <;> (try cases x) <;> (try cases y) <;> simp <;> first | omega | exact eq_comm | (apply Bool.eq_iff_iff.2; simp; exact eq_comm) | skip

theorem pyEq_trans_hash : ∀ (a b c : Val), a.hashable = true → b.hashable = true → c.hashable = true →
    Val.pyEq a b = true → Val.pyEq a c = Val.pyEq b c := by
  intro a b c ha hb hc
  cases a <;> cases b <;> simp [Val.hashable] at ha hb <;> simp only [Val.pyEq, Bool.false_eq_true, false_implies] <;>
    cases c <;> simp [Val.hashable] at hc <;> simp [Val.pyEq] <;> (intros; subst_vars; first | rfl | (rename_i p q; cases p <;> cases q <;> rfl))

theorem pyEq_refl_hash (a : Val) (ha : a.hashable = true) : Val.pyEq a a = true := by
  cases a <;> simp [Val.hashable] at ha <;> simp [Val.pyEq]

theorem dictGet_set (k v k' : Val) (hk : k.hashable = true) (hk' : k'.hashable = true) : ∀ (d : List (Val × Val)), (∀ e ∈ d, e.1.hashable = true) →
    dictGet (dictSet d k v) k' = if Val.pyEq k' k then some v else dictGet d k'
  | [], _ => by
    simp only [dictSet, dictGet, pyEq_symm_hash k k' hk hk']
  | (q, w) :: r, hd => by
    have hq := hd (q, w) (by simp)
    have ih := dictGet_set k v k' hk hk' r (fun e he => hd e (by simp [he]))
    by_cases hqk : Val.pyEq q k = true
    · have := pyEq_trans_hash q k k' hq hk hk' hqk
      simp only [dictSet, hqk, if_true, dictGet]
      rw [this, pyEq_symm_hash k' k hk' hk]
      by_cases c : Val.pyEq k k' = true <;> simp [c]
    · simp only [dictSet, hqk, if_false, dictGet, Bool.false_eq_true, if_false]
      rw [ih]
      by_cases c : Val.pyEq q k' = true
      · have h1 := pyEq_trans_hash q k' k hq hk' hk c
        simp only [c, if_true]
        rw [if_neg (by rw [← h1]; exact hqk)]
      · simp [c]

theorem dictSet_keys (k v : Val) (hk : k.hashable = true) : ∀ d : List (Val × Val), (∀ e ∈ d, e.1.hashable = true) → ∀ e ∈ dictSet d k v, e.1.hashable = true
  | [], _ => by simp [dictSet, hk]
  | (q, w) :: r, hd => by
    unfold dictSet
    split
    · intro e he
      rcases List.mem_cons.1 he with rfl | h
      · exact hd (q, w) (by simp)
      · exact hd e (by simp [h])
    · intro e he
      rcases List.mem_cons.1 he with rfl | h
      · exact hd (q, w) (by simp)
      · exact dictSet_keys k v hk r (fun e he => hd e (by simp [he])) e h

theorem dictSet_mem (k v : Val) : ∀ (d : List (Val × Val)) e, e ∈ dictSet d k v → (∃ e' ∈ d, e'.1 = e.1) ∨ e.1 = k
  | [], e, he => by simp [dictSet] at he; exact .inr (by rw [he])
  | (q, w) :: r, e, he => by
    unfold dictSet at he
    split at he
    · rcases List.mem_cons.1 he with rfl | h
      · exact .inl ⟨(q, w), by simp, rfl⟩
      · exact .inl ⟨e, by simp [h], rfl⟩
    · rcases List.mem_cons.1 he with rfl | h
      · exact .inl ⟨(q, w), by simp, rfl⟩
      · rcases dictSet_mem k v r e h with ⟨e', h1, h2⟩ | h
        · exact .inl ⟨e', by simp [h1], h2⟩
        · exact .inr h

theorem dictSet_isDict (k v : Val) (hk : k.hashable = true) : ∀ d : List (Val × Val), IsDict d → IsDict (dictSet d k v) := by
  intro d hd
  refine ⟨dictSet_keys k v hk d hd.1, ?_⟩
  have key : ∀ d : List (Val × Val), d.Pairwise (fun a b => Val.pyEq a.1 b.1 = false) →
      (dictSet d k v).Pairwise (fun a b => Val.pyEq a.1 b.1 = false) := by
    intro d
    induction d with
    | nil => simp [dictSet]
    | cons e r ih =>
      obtain ⟨q, w⟩ := e
      intro hp
      rw [List.pairwise_cons] at hp
      unfold dictSet
      split
      · rw [List.pairwise_cons]; exact hp
      · rename_i hn
        rw [List.pairwise_cons]
        refine ⟨fun e he => ?_, ih hp.2⟩
        rcases dictSet_mem k v r e he with ⟨e', h1, h2⟩ | h
        · rw [← h2]; exact hp.1 e' h1
        · rw [h]; simpa using hn
  exact key d hd.2

theorem dictGet_none_of {k : Val} : ∀ {d : List (Val × Val)}, (∀ e ∈ d, Val.pyEq e.1 k = false) → dictGet d k = none
  | [], _ => rfl
  | (q, w) :: r, h => by
    simp only [dictGet, h (q, w) (by simp), Bool.false_eq_true, if_false]
    exact dictGet_none_of fun e he => h e (by simp [he])

theorem dictGet_del (k k' : Val) (hk : k.hashable = true) (hk' : k'.hashable = true) : ∀ (d : List (Val × Val)), IsDict d →
    dictGet (dictDel d k) k' = if Val.pyEq k' k then none else dictGet d k'
  | [], _ => by simp [dictDel, dictGet]
  | (q, w) :: r, hd => by
    have hq := hd.1 (q, w) (by simp)
    have hr : IsDict r := ⟨fun e he => hd.1 e (by simp [he]), (List.pairwise_cons.1 hd.2).2⟩
    have ih := dictGet_del k k' hk hk' r hr
    by_cases hqk : Val.pyEq q k = true
    · have h1 := pyEq_trans_hash q k k' hq hk hk' hqk
      simp only [dictDel, hqk, if_true, dictGet]
      rw [h1, pyEq_symm_hash k' k hk' hk]
      by_cases c : Val.pyEq k k' = true
      · simp only [c, if_true]
        apply dictGet_none_of
        intro e he
        have he' := hd.1 e (by simp [he])
        have := (List.pairwise_cons.1 hd.2).1 e he
        have h2 := pyEq_trans_hash q k' e.1 hq hk' he' (by rw [h1]; exact c)
        rw [pyEq_symm_hash _ _ he' hk', ← h2]; exact this
      · simp [c]
    · simp only [dictDel, hqk, dictGet, Bool.false_eq_true, if_false]
      rw [ih]
      by_cases c : Val.pyEq q k' = true
      · have h1 := pyEq_trans_hash q k' k hq hk' hk c
        simp only [c, if_true]
        rw [if_neg (by rw [← h1]; exact hqk)]
      · simp [c]

end ITree
