import Verif.Proofs.Objects
/-
`copy.deepcopy` of value objects returns.
-/
namespace ITree

theorem memoList_mono {f g : DS → Nat → Except Err (DS × Nat)} (h : ∀ s a r, f s a = .ok r → g s a = .ok r) : ∀ (l : List Nat) (s : DS) (r), memoList f s l = .ok r → memoList g s l = .ok r
  | [], _, _, e => e
  | a :: l, s, r, e => by
    simp only [memoList, bind, Except.bind] at e ⊢
    cases e1 : f s a with
    | error _ => rw [e1] at e; cases e
    | ok r1 =>
      rw [e1] at e; rw [h s a r1 e1]
      simp only at e ⊢
      cases e2 : memoList f r1.1 l with
      | error _ => rw [e2] at e; cases e
      | ok r2 => rw [e2] at e; rw [memoList_mono h l r1.1 r2 e2]; exact e

theorem memoCopy_mono : ∀ (n : Nat) (s : DS) (a : Nat) (r), memoCopy n s a = .ok r → memoCopy (n + 1) s a = .ok r
  | 0, _, _, _, e => by cases e
  | n + 1, s, a, r, e => by
    have M := @memoList_mono _ _ (memoCopy_mono n)
    rw [memoCopy] at e ⊢
    cases em : s.memo.lookup a with
    | some b => rw [em] at e; exact e
    | none =>
      rw [em] at e
      simp only at e ⊢
      cases ek : (s.store.cell a).kind <;> rw [ek] at e <;> simp only [bind, Except.bind] at e ⊢
      case atom => exact e
      case tuple =>
        cases e2 : memoList (memoCopy n) s (s.store.cell a).ptrs with
        | error _ => rw [e2] at e; cases e
        | ok r2 => rw [e2] at e; rw [M _ _ _ e2]; exact e
      all_goals
        split at e
        · cases e
        · rename_i r2 e2; rw [M _ _ _ e2]; exact e

theorem memoCopy_mono' {n m : Nat} (h : n ≤ m) {s : DS} {a : Nat} {r} (e : memoCopy n s a = .ok r) : memoCopy m s a = .ok r := by
  induction h with
  | refl => exact e
  | step _ ih => exact memoCopy_mono _ _ _ _ ih

/-- objects still to be copied -/
def todo (s0 : Store) (s : DS) : List Nat := (List.range s0.next).filter fun c => (s0.cell c).kind.mutable && (s.memo.lookup c).isNone

theorem todo_le {s0 : Store} {s t : DS} (h : ∀ p q, s.memo.lookup p = some q → ∃ q', t.memo.lookup p = some q') : (todo s0 t).length ≤ (todo s0 s).length := by
  unfold todo
  refine (List.Sublist.length_le ?_)
  refine List.monotone_filter_right _ fun c hc => ?_
  simp only [Bool.and_eq_true, Option.isNone_iff_eq_none] at hc ⊢
  refine ⟨hc.1, ?_⟩
  cases e : s.memo.lookup c with
  | none => rfl
  | some q => obtain ⟨q', h'⟩ := h c q e; rw [hc.2] at h'; cases h'

theorem todo_lt {s0 : Store} {s t : DS} (h : ∀ p q, s.memo.lookup p = some q → ∃ q', t.memo.lookup p = some q') {a b : Nat} (ha : a < s0.next)
    (hm : (s0.cell a).kind.mutable = true) (h1 : s.memo.lookup a = none) (h2 : t.memo.lookup a = some b) : (todo s0 t).length < (todo s0 s).length := by
  have le := @todo_le s0 s t h
  rcases Nat.lt_or_eq_of_le le with h' | h'
  · exact h'
  · exfalso
    have sub : List.Sublist (todo s0 t) (todo s0 s) := by
      refine List.monotone_filter_right _ fun c hc => ?_
      simp only [Bool.and_eq_true, Option.isNone_iff_eq_none] at hc ⊢
      refine ⟨hc.1, ?_⟩
      cases e : s.memo.lookup c with
      | none => rfl
      | some q => obtain ⟨q', h'⟩ := h c q e; rw [hc.2] at h'; cases h'
    have e := sub.eq_of_length h'
    have : a ∈ todo s0 s := by simp [todo, ha, hm, h1]
    rw [← e] at this
    simp [todo, h2] at this

theorem memoList_total {s0 : Store} (G : s0.Good) (c : Nat) (l : List Nat) (hl : ∀ a ∈ l, a < s0.next)
    (H : ∀ s a, a ∈ l → MInv s0 s → (todo s0 s).length ≤ c → ∃ n r, memoCopy n s a = .ok r) :
    ∀ s, MInv s0 s → (todo s0 s).length ≤ c → ∃ n r, memoList (memoCopy n) s l = .ok r := by
  induction l with
  | nil => exact fun s _ _ => ⟨0, _, rfl⟩
  | cons a l ih =>
    intro s I hc
    obtain ⟨n, r, e⟩ := H s a (by simp) I hc
    obtain ⟨I1, E1, _⟩ := memoCopy_spec G n s a r.1 r.2 I (hl a (by simp)) e
    have hc1 : (todo s0 r.1).length ≤ c := Nat.le_trans (todo_le fun p q h => ⟨q, E1.memo p q h⟩) hc
    obtain ⟨n2, r2, e2⟩ := ih (fun b hb => hl b (by simp [hb])) (fun s b hb => H s b (by simp [hb])) r.1 I1 hc1
    refine ⟨max n n2, (r2.1, r.2 :: r2.2), ?_⟩
    simp only [memoList, bind, Except.bind, memoCopy_mono' (Nat.le_max_left n n2) e]
    rw [memoList_mono (fun s a r h => memoCopy_mono' (Nat.le_max_right n n2) h) l r.1 r2 e2]
    rfl

theorem memoCopy_total {s0 : Store} (G : s0.Good) {rank : Nat → Nat} (R : s0.Ranked rank) :
    ∀ (c k : Nat) (s : DS) (a : Nat), MInv s0 s → a < s0.next → (todo s0 s).length ≤ c → (if (s0.cell a).kind = .tuple then rank a + 1 else 0) ≤ k → ∃ n r, memoCopy n s a = .ok r := by
  intro c
  induction c using Nat.strongRecOn with
  | _ c ihc =>
  intro k
  induction k using Nat.strongRecOn with
  | _ k ihk =>
  intro s a I ha hc hk
  have ec := I.grown.old a ha
  have hp := G.closed a ha
  cases em : s.memo.lookup a with
  | some b => exact ⟨1, (s, b), by simp [memoCopy, em]⟩
  | none =>
    have chg (hm : (s0.cell a).kind.mutable = true) : ∃ n r, memoCopy n s a = .ok r := by
      let s1 : DS := ⟨(s.store.alloc { s0.cell a with ptrs := [] }).1, (a, s.store.next) :: s.memo⟩
      have I1 : MInv s0 s1 := by
        have hle := I.grown.le
        refine ⟨⟨Nat.le_succ_of_le hle, fun c hc => ?_, fun c hc hc' => ?_⟩, fun p q h => ?_⟩
        · simp only [s1, Store.alloc, if_neg (show c ≠ s.store.next by omega)]; exact I.grown.old c hc
        · by_cases e : c = s.store.next
          · simp [s1, Store.alloc, e]
          · simp only [s1, Store.alloc, if_neg e] at hc' ⊢
            intro p hp
            have := I.grown.new c hc (by omega) p hp
            exact ⟨Nat.lt_succ_of_lt this.1, this.2⟩
        · rcases lookup_push h with ⟨rfl, rfl⟩ | ⟨_, h⟩
          · exact ⟨ha, I.grown.le, Nat.lt_succ_self _⟩
          · have := I.memo p q h; exact ⟨this.1, this.2.1, Nat.lt_succ_of_lt this.2.2⟩
      have lt : (todo s0 s1).length < (todo s0 s).length := todo_lt (fun p q h => ⟨q, lookup_push' em h⟩) ha hm em (b := s.store.next) (by simp [s1])
      obtain ⟨n, r, e⟩ := memoList_total G (todo s0 s1).length (s0.cell a).ptrs hp
        (fun t b hb It ht => ihc _ (by omega) _ t b It (hp b hb) ht (Nat.le_refl _)) s1 I1 (Nat.le_refl _)
      refine ⟨n + 1, (⟨r.1.store.put s.store.next r.2, r.1.memo⟩, s.store.next), ?_⟩
      simp only [memoCopy, em, ec]
      have eq : (do
          let q := s.store.alloc { s0.cell a with ptrs := [] }
          let r ← memoList (memoCopy n) ⟨q.1, (a, q.2) :: s.memo⟩ (s0.cell a).ptrs
          return (⟨r.1.store.put q.2 r.2, r.1.memo⟩, q.2) : Except Err (DS × Nat)) = .ok (⟨r.1.store.put s.store.next r.2, r.1.memo⟩, s.store.next) := by
        simp only [bind, Except.bind]
        have e0 : (s.store.alloc { s0.cell a with ptrs := [] }).2 = s.store.next := rfl
        simp only [e0]
        simp only [s1] at e
        rw [e]; rfl
      cases ek : (s0.cell a).kind <;> simp only [ek] at eq ⊢
      case atom => rw [ek] at hm; cases hm
      case tuple => rw [ek] at hm; cases hm
      all_goals exact eq
    cases ek : (s0.cell a).kind with
    | atom => exact ⟨1, (s, a), by simp [memoCopy, em, ec, ek]⟩
    | tuple =>
      obtain ⟨n, r, e⟩ := memoList_total G c (s0.cell a).ptrs hp (fun t b hb It ht => by
        refine ihk (if (s0.cell b).kind = .tuple then rank b + 1 else 0) ?_ t b It (hp b hb) ht (Nat.le_refl _)
        rw [if_pos ek] at hk
        split
        · rename_i eb
          have := R a ha ek b hb eb
          omega
        · omega) s I hc
      cases e1 : r.1.memo.lookup a with
      | some b => exact ⟨n + 1, (r.1, b), by simp [memoCopy, em, ec, ek, e, bind, Except.bind, e1, pure, Except.pure]⟩
      | none =>
        by_cases hs : r.2 = (s0.cell a).ptrs
        · exact ⟨n + 1, (r.1, a), by simp [memoCopy, em, ec, ek, e, bind, Except.bind, e1, hs, pure, Except.pure]⟩
        · exact ⟨n + 1, _, by simp [memoCopy, em, ec, ek, e, bind, Except.bind, e1, hs, pure, Except.pure]; rfl⟩
    | list => exact chg (by rw [ek]; rfl)
    | dict => exact chg (by rw [ek]; rfl)
    | inst => exact chg (by rw [ek]; rfl)
    | model => exact chg (by rw [ek]; rfl)

end ITree
