import Verif.Spec.Objects
import Mathlib.Data.List.Forall2
/-
Deep copies of value objects.
-/
namespace ITree

/-- constants, and tuples of such: nothing that can be reached from it can be changed in place -/
inductive Imm (s : Store) : Nat → Prop where
  | atom {a : Nat} : (s.cell a).kind = .atom → (s.cell a).ptrs = [] → Imm s a
  | tuple {a : Nat} : (s.cell a).kind = .tuple → (∀ p ∈ (s.cell a).ptrs, Imm s p) → Imm s a

theorem Imm.ptrs {s : Store} {a : Nat} (h : Imm s a) : ∀ p ∈ (s.cell a).ptrs, Imm s p := by
  cases h with
  | atom _ e => simp [e]
  | tuple _ h => exact h

theorem Imm.kind {s : Store} {a : Nat} (h : Imm s a) : (s.cell a).kind.mutable = false := by
  cases h with
  | atom e _ => simp [e, Kind.mutable]
  | tuple e _ => simp [e, Kind.mutable]

/-- look depends only on a closed set of cells -/
theorem look_congr {s s' : Store} (P : Nat → Prop) (hP : ∀ a, P a → s'.cell a = s.cell a ∧ ∀ p ∈ (s.cell a).ptrs, P p) :
    ∀ k a, P a → s'.look k a = s.look k a
  | 0, _, _ => rfl
  | k + 1, a, ha => by
    obtain ⟨e, c⟩ := hP a ha
    simp only [Store.look, e]
    congr 1
    exact List.map_congr_left fun p hp => look_congr P hP k p (c p hp)

/-- `s` is `s0` after adding objects that refer only to added ones and to immutable old ones -/
structure Grown (s0 s : Store) : Prop where
  le : s0.next ≤ s.next
  old : ∀ c, c < s0.next → s.cell c = s0.cell c
  new : ∀ c, s0.next ≤ c → c < s.next → ∀ p ∈ (s.cell c).ptrs, p < s.next ∧ (s0.next ≤ p ∨ Imm s0 p)

theorem Grown.refl (s : Store) : Grown s s := ⟨Nat.le_refl _, fun _ _ => rfl, fun c h h' => by omega⟩

def MRel (s0 : Store) (s : DS) (p q : Nat) : Prop := s.memo.lookup p = some q ∨ (p = q ∧ Imm s0 p)

structure MInv (s0 : Store) (s : DS) : Prop where
  grown : Grown s0 s.store
  memo : ∀ p q, s.memo.lookup p = some q → p < s0.next ∧ s0.next ≤ q ∧ q < s.store.next

/-- the copy `q` of `p` is complete -/
structure MDone (s0 : Store) (s : DS) (p q : Nat) : Prop where
  kind : (s.store.cell q).kind = (s0.cell p).kind
  scalar : (s.store.cell q).scalar = (s0.cell p).scalar
  ptrs : List.Forall₂ (MRel s0 s) (s0.cell p).ptrs (s.store.cell q).ptrs

structure MExt (s0 : Store) (s s' : DS) : Prop where
  le : s.store.next ≤ s'.store.next
  cells : ∀ c, c < s.store.next → s'.store.cell c = s.store.cell c
  memo : ∀ p q, s.memo.lookup p = some q → s'.memo.lookup p = some q
  fresh : ∀ p q, s'.memo.lookup p = some q → s.memo.lookup p = some q ∨ (s.store.next ≤ q ∧ MDone s0 s' p q)

theorem MRel.mono {s0 : Store} {s s' : DS} (h : ∀ p q, s.memo.lookup p = some q → s'.memo.lookup p = some q) {p q : Nat} (r : MRel s0 s p q) : MRel s0 s' p q :=
  r.imp (h p q) id

theorem MDone.mono {s0 : Store} {s s' : DS} {p q : Nat} (d : MDone s0 s p q) (hc : s'.store.cell q = s.store.cell q)
    (h : ∀ p q, s.memo.lookup p = some q → s'.memo.lookup p = some q) : MDone s0 s' p q := by
  refine ⟨by rw [hc]; exact d.kind, by rw [hc]; exact d.scalar, ?_⟩
  rw [hc]; exact d.ptrs.imp fun _ _ => MRel.mono h

theorem MExt.refl (s0 : Store) (s : DS) : MExt s0 s s := ⟨Nat.le_refl _, fun _ _ => rfl, fun _ _ => id, fun _ _ => .inl⟩

theorem MExt.trans {s0 : Store} {s t u : DS} (It : MInv s0 t) (a : MExt s0 s t) (b : MExt s0 t u) : MExt s0 s u := by
  refine ⟨Nat.le_trans a.le b.le, fun c hc => (b.cells c (by have := a.le; omega)).trans (a.cells c hc), fun p q h => b.memo p q (a.memo p q h), fun p q h => ?_⟩
  rcases b.fresh p q h with h | ⟨h, d⟩
  · rcases a.fresh p q h with h' | ⟨h', d⟩
    · exact .inl h'
    · exact .inr ⟨h', d.mono (b.cells q (It.memo p q h).2.2) b.memo⟩
  · exact .inr ⟨by have := a.le; omega, d⟩

/-- what one call of `deepcopy` achieves -/
def MemoSpec (s0 : Store) (f : DS → Nat → Except Err (DS × Nat)) : Prop :=
  ∀ s a s' b, MInv s0 s → a < s0.next → f s a = .ok (s', b) → MInv s0 s' ∧ MExt s0 s s' ∧ MRel s0 s' a b

theorem memoList_spec {s0 : Store} {f} (F : MemoSpec s0 f) : ∀ (l : List Nat) (s s' : DS) (r : List Nat), MInv s0 s → (∀ a ∈ l, a < s0.next) →
    memoList f s l = .ok (s', r) → MInv s0 s' ∧ MExt s0 s s' ∧ List.Forall₂ (MRel s0 s') l r
  | [], s, s', r, I, _, e => by
    simp only [memoList, Except.ok.injEq, Prod.mk.injEq] at e
    obtain ⟨rfl, rfl⟩ := e
    exact ⟨I, .refl _ _, .nil⟩
  | a :: l, s, s', r, I, hl, e => by
    simp only [memoList, bind, Except.bind] at e
    cases e1 : f s a with
    | error _ => rw [e1] at e; cases e
    | ok r1 =>
      rw [e1] at e
      simp only at e
      cases e2 : memoList f r1.1 l with
      | error _ => rw [e2] at e; cases e
      | ok r2 =>
        rw [e2] at e
        simp only [pure, Except.pure, Except.ok.injEq, Prod.mk.injEq] at e
        obtain ⟨rfl, rfl⟩ := e
        obtain ⟨I1, E1, R1⟩ := F s a r1.1 r1.2 I (hl a (by simp)) e1
        obtain ⟨I2, E2, R2⟩ := memoList_spec F l r1.1 r2.1 r2.2 I1 (fun b hb => hl b (by simp [hb])) e2
        exact ⟨I2, E1.trans I1 E2, .cons (R1.mono E2.memo) R2⟩

theorem MRel.world {s0 : Store} {s : DS} (I : MInv s0 s) {p q : Nat} (hp : p < s0.next) (r : MRel s0 s p q) : q < s.store.next ∧ (s0.next ≤ q ∨ Imm s0 q) := by
  rcases r with h | ⟨rfl, h⟩
  · have := I.memo p q h; exact ⟨this.2.2, .inl this.2.1⟩
  · exact ⟨by have := I.grown.le; omega, .inr h⟩

theorem forall2_world {s0 : Store} {s : DS} (I : MInv s0 s) {l r : List Nat} (hl : ∀ a ∈ l, a < s0.next) (h : List.Forall₂ (MRel s0 s) l r) :
    ∀ q ∈ r, q < s.store.next ∧ (s0.next ≤ q ∨ Imm s0 q) := by
  induction h with
  | nil => simp
  | @cons a b l r h1 h2 ih =>
    intro q hq
    rcases List.mem_cons.1 hq with rfl | hq
    · exact h1.world I (hl a (by simp))
    · exact ih (fun a ha => hl a (by simp [ha])) q hq

theorem forall2_same {s0 : Store} {s : DS} (I : MInv s0 s) {l : List Nat} (hl : ∀ a ∈ l, a < s0.next) (h : List.Forall₂ (MRel s0 s) l l) :
    ∀ q ∈ l, Imm s0 q := by
  generalize e : l = r at h
  have key : ∀ l r, List.Forall₂ (MRel s0 s) l r → l = r → (∀ a ∈ l, a < s0.next) → ∀ q ∈ l, Imm s0 q := by
    intro l r h
    induction h with
    | nil => simp
    | @cons a b l r h1 h2 ih =>
      intro e hl q hq
      simp only [List.cons.injEq] at e
      obtain ⟨rfl, e⟩ := e
      rcases List.mem_cons.1 hq with rfl | hq
      · rcases h1 with h | ⟨_, h⟩
        · have := I.memo _ _ h; omega
        · exact h
      · exact ih e (fun a ha => hl a (by simp [ha])) q hq
  subst e
  exact key l l h rfl hl

theorem lookup_push {a b p q : Nat} {m : List (Nat × Nat)} (h : List.lookup p ((a, b) :: m) = some q) : (p = a ∧ q = b) ∨ (p ≠ a ∧ m.lookup p = some q) := by
  by_cases e : p = a
  · subst e; simp at h; exact .inl ⟨rfl, h.symm⟩
  · rw [List.lookup_cons, beq_false_of_ne e] at h; exact .inr ⟨e, h⟩

theorem lookup_push' {a b p q : Nat} {m : List (Nat × Nat)} (hn : m.lookup a = none) (h : m.lookup p = some q) : List.lookup p ((a, b) :: m) = some q := by
  have e : p ≠ a := by rintro rfl; rw [hn] at h; cases h
  rw [List.lookup_cons, beq_false_of_ne e]; exact h

theorem memoCopy_spec {s0 : Store} (G : s0.Good) : ∀ n, MemoSpec s0 (memoCopy n)
  | 0 => by intro s a s' b _ _ e; cases e
  | n + 1 => by
    intro s a s' b I ha e
    have F := memoCopy_spec G n
    have ec := I.grown.old a ha
    have hp := G.closed a ha
    simp only [memoCopy] at e
    cases em : s.memo.lookup a with
    | some b0 =>
      rw [em] at e
      simp only [Except.ok.injEq, Prod.mk.injEq] at e
      obtain ⟨rfl, rfl⟩ := e
      exact ⟨I, .refl _ _, .inl em⟩
    | none =>
      rw [em] at e
      simp only [ec] at e
      have main : (do
          let q := s.store.alloc { s0.cell a with ptrs := [] }
          let r ← memoList (memoCopy n) ⟨q.1, (a, q.2) :: s.memo⟩ (s0.cell a).ptrs
          return (⟨r.1.store.put q.2 r.2, r.1.memo⟩, q.2) : Except Err (DS × Nat)) = .ok (s', b) → MInv s0 s' ∧ MExt s0 s s' ∧ MRel s0 s' a b := by
        intro e
        simp only [bind, Except.bind, Store.alloc] at e
        generalize hs1 : (⟨⟨fun j => if j = s.store.next then { s0.cell a with ptrs := [] } else s.store.cell j, s.store.next + 1⟩, (a, s.store.next) :: s.memo⟩ : DS) = s1 at e
        have I1 : MInv s0 s1 := by
          subst hs1
          refine ⟨⟨by have := I.grown.le; simp only; omega, fun c hc => ?_, fun c hc hc' => ?_⟩, fun p q h => ?_⟩
          · have := I.grown.le
            simp only [if_neg (show c ≠ s.store.next by omega)]; exact I.grown.old c hc
          · by_cases e : c = s.store.next
            · simp [e]
            · simp only [if_neg e]
              intro p hp
              have := I.grown.new c hc (by simp only at hc'; omega) p hp
              exact ⟨Nat.lt_succ_of_lt this.1, this.2⟩
          · rcases lookup_push h with ⟨rfl, rfl⟩ | ⟨_, h⟩
            · exact ⟨ha, I.grown.le, Nat.lt_succ_self _⟩
            · have := I.memo p q h; exact ⟨this.1, this.2.1, Nat.lt_succ_of_lt this.2.2⟩
        cases e2 : memoList (memoCopy n) s1 (s0.cell a).ptrs with
        | error _ => rw [e2] at e; cases e
        | ok r =>
          rw [e2] at e
          simp only [pure, Except.pure, Except.ok.injEq, Prod.mk.injEq] at e
          obtain ⟨rfl, rfl⟩ := e
          obtain ⟨I2, E2, R2⟩ := memoList_spec F _ s1 r.1 r.2 I1 hp e2
          have W2 := forall2_world I2 hp R2
          have hn1 : s1.store.next = s.store.next + 1 := by subst hs1; rfl
          have hc1 : s1.store.cell s.store.next = { s0.cell a with ptrs := [] } := by subst hs1; simp
          have hc2 := E2.cells s.store.next (by omega)
          have hm1 : s1.memo = (a, s.store.next) :: s.memo := by subst hs1; rfl
          have hmem : r.1.memo.lookup a = some s.store.next := E2.memo a _ (by rw [hm1]; simp)
          have hle := I.grown.le
          have hput : ∀ c, c ≠ s.store.next → (r.1.store.put s.store.next r.2).cell c = r.1.store.cell c := fun c hc => by simp [Store.put, hc]
          have hputb : (r.1.store.put s.store.next r.2).cell s.store.next = { s0.cell a with ptrs := r.2 } := by
            simp only [Store.put, if_true, hc2, hc1]
          refine ⟨⟨⟨I2.grown.le, fun c hc => ?_, fun c hc hc' => ?_⟩, I2.memo⟩, ⟨?_, fun c hc => ?_, fun p q h => ?_, fun p q h => ?_⟩, .inl hmem⟩
          · exact (hput c (by omega)).trans (I2.grown.old c hc)
          · by_cases e : c = s.store.next
            · subst e; simp only [hputb]; exact W2
            · simp only [hput c e]; exact I2.grown.new c hc hc'
          · have := E2.le; simp only [Store.put]; omega
          · simp only [hput c (by omega)]
            rw [E2.cells c (by omega)]
            subst hs1; simp only [if_neg (show c ≠ s.store.next by omega)]
          · exact E2.memo p q (by rw [hm1]; exact lookup_push' em h)
          · rcases E2.fresh p q h with h1 | ⟨h1, d⟩
            · rw [hm1] at h1
              rcases lookup_push h1 with ⟨rfl, rfl⟩ | ⟨_, h1⟩
              · refine .inr ⟨Nat.le_refl _, ⟨by simp only [hputb], by simp only [hputb], ?_⟩⟩
                simp only [hputb]; exact R2
              · exact .inl h1
            · refine .inr ⟨by omega, d.mono (hput q (by omega)) fun _ _ => id⟩
      cases ek : (s0.cell a).kind with
      | atom =>
        rw [ek] at e
        simp only [Except.ok.injEq, Prod.mk.injEq] at e
        obtain ⟨rfl, rfl⟩ := e
        exact ⟨I, .refl _ _, .inr ⟨rfl, .atom ek (G.atoms a ek)⟩⟩
      | tuple =>
        rw [ek] at e
        simp only [bind, Except.bind] at e
        cases e2 : memoList (memoCopy n) s (s0.cell a).ptrs with
        | error _ => rw [e2] at e; cases e
        | ok r =>
          rw [e2] at e
          simp only at e
          obtain ⟨I2, E2, R2⟩ := memoList_spec F _ s r.1 r.2 I hp e2
          cases em2 : r.1.memo.lookup a with
          | some b0 =>
            rw [em2] at e
            simp only [pure, Except.pure, Except.ok.injEq, Prod.mk.injEq] at e
            obtain ⟨rfl, rfl⟩ := e
            exact ⟨I2, E2, .inl em2⟩
          | none =>
            rw [em2] at e
            simp only [pure, Except.pure] at e
            by_cases hsame : r.2 = (s0.cell a).ptrs
            · rw [if_pos hsame] at e
              simp only [Except.ok.injEq, Prod.mk.injEq] at e
              obtain ⟨rfl, rfl⟩ := e
              rw [hsame] at R2
              exact ⟨I2, E2, .inr ⟨rfl, .tuple ek (forall2_same I2 hp R2)⟩⟩
            · rw [if_neg hsame] at e
              simp only [Store.alloc, Except.ok.injEq, Prod.mk.injEq] at e
              obtain ⟨rfl, rfl⟩ := e
              have W2 := forall2_world I2 hp R2
              have hle := I2.grown.le
              have hm : ∀ p q, r.1.memo.lookup p = some q → List.lookup p ((a, r.1.store.next) :: r.1.memo) = some q := fun p q => lookup_push' em2
              refine ⟨⟨⟨by simp only; omega, fun c hc => ?_, fun c hc hc' => ?_⟩, fun p q h => ?_⟩, ⟨?_, fun c hc => ?_, fun p q h => hm p q (E2.memo p q h), fun p q h => ?_⟩, .inl (by simp)⟩
              · simp only [if_neg (show c ≠ r.1.store.next by omega)]; exact I2.grown.old c hc
              · by_cases e : c = r.1.store.next
                · subst e
                  intro p hp; simp only [if_true] at hp; have := W2 p hp; exact ⟨by simp only; omega, this.2⟩
                · simp only [if_neg e]
                  intro p hp; have := I2.grown.new c hc (by simp only at hc'; omega) p hp; exact ⟨Nat.lt_succ_of_lt this.1, this.2⟩
              · rcases lookup_push h with ⟨rfl, rfl⟩ | ⟨_, h⟩
                · exact ⟨ha, hle, Nat.lt_succ_self _⟩
                · have := I2.memo p q h; exact ⟨this.1, this.2.1, Nat.lt_succ_of_lt this.2.2⟩
              · have := E2.le; simp only; omega
              · have := E2.le
                simp only [if_neg (show c ≠ r.1.store.next by omega)]; exact E2.cells c hc
              · rcases lookup_push h with ⟨rfl, rfl⟩ | ⟨_, h⟩
                · refine .inr ⟨E2.le, ⟨by simp [ek], by simp, ?_⟩⟩
                  simp only [if_true]; exact R2.imp fun _ _ => MRel.mono hm
                · rcases E2.fresh p q h with h1 | ⟨h1, d⟩
                  · exact .inl h1
                  · exact .inr ⟨h1, d.mono (by have := (I2.memo p q h).2.2; simp [show q ≠ r.1.store.next by omega]) hm⟩
      | list => simp only [ek] at e main; exact main e
      | dict => simp only [ek] at e main; exact main e
      | inst => simp only [ek] at e main; exact main e
      | model => simp only [ek] at e main; exact main e


/-- a complete copy looks like the original -/
theorem rel_look {s0 : Store} (C : s0.Closed) {s : DS} (I : MInv s0 s) (D : ∀ p q, s.memo.lookup p = some q → MDone s0 s p q) :
    ∀ k p q, p < s0.next → MRel s0 s p q → s.store.look k q = s0.look k p
  | 0, _, _, _, _ => rfl
  | k + 1, p, q, hp, r => by
    have same : ∀ a, a < s0.next → s.store.look k a = s0.look k a := fun a ha =>
      look_congr (fun a => a < s0.next) (fun a ha => ⟨I.grown.old a ha, C a ha⟩) k a ha
    rcases r with h | ⟨rfl, h⟩
    · obtain ⟨a, b, c⟩ := D p q h
      simp only [Store.look, a, b]
      congr 1
      have cl := C p hp
      generalize (s0.cell p).ptrs = l at c cl
      generalize (s.store.cell q).ptrs = r at c
      induction c with
      | nil => rfl
      | @cons x y l r h1 _ ih =>
        simp only [List.map_cons]
        rw [rel_look C I D k x y (cl x (by simp)) h1, ih fun z hz => cl z (by simp [hz])]
    · simp only [Store.look, I.grown.old p hp]
      congr 1
      exact List.map_congr_left fun a ha => same a (C p hp a ha)

theorem memoCopy_fresh {s0 s : Store} (G : s0.Good) (g : Grown s0 s) {n a : Nat} (ha : a < s0.next) {s' : DS} {b : Nat} (e : memoCopy n ⟨s, []⟩ a = .ok (s', b)) :
    Grown s0 s'.store ∧ s.next ≤ s'.store.next ∧ (∀ c, c < s.next → s'.store.cell c = s.cell c) ∧ b < s'.store.next ∧ (s0.next ≤ b ∨ Imm s0 b) ∧
      ∀ k, s'.store.look k b = s0.look k a := by
  have I : MInv s0 ⟨s, []⟩ := ⟨g, fun p q h => by cases h⟩
  obtain ⟨I', E, R⟩ := memoCopy_spec G n ⟨s, []⟩ a s' b I ha e
  have W := R.world I' ha
  refine ⟨I'.grown, E.le, E.cells, W.1, W.2, fun k => rel_look G.closed I' (fun p q h => ?_) k a b ha R⟩
  rcases E.fresh p q h with h | h
  · cases h
  · exact h.2

/-! ### programs that know some objects -/

/-- running actions inside a world `P` of objects: everything known is in the world, everything the world's objects refer to is in the world -/
structure World (P : Nat → Prop) (M : Nat → Prop) (s1 : Store) (s : Store × List Nat) : Prop where
  known : ∀ a ∈ s.2, P a ∧ a < s.1.next
  closed : ∀ a, P a → a < s.1.next → ∀ p ∈ (s.1.cell a).ptrs, P p ∧ p < s.1.next
  next : s1.next ≤ s.1.next
  same : ∀ a, M a → s.1.cell a = s1.cell a

theorem World.act {P M : Nat → Prop} {s1 : Store} {s : Store × List Nat} (W : World P M s1 s) (up : ∀ a, s1.next ≤ a → P a)
    (hM : ∀ a, M a → a < s1.next ∧ (P a → (s1.cell a).kind.mutable = false)) (c : Act) : World P M s1 (Act.run s c) := by
  obtain ⟨s, K⟩ := s
  cases c with
  | read a =>
    simp only [Act.run]
    split
    · rename_i ha
      have := W.known a ha
      refine ⟨fun b hb => ?_, W.closed, W.next, W.same⟩
      rcases List.mem_append.1 hb with hb | hb
      · exact W.known b hb
      · exact W.closed a this.1 this.2 b hb
    · exact W
  | write a l =>
    simp only [Act.run]
    split
    · rename_i ha
      obtain ⟨ha, hl, hm⟩ := ha
      have := W.known a ha
      refine ⟨W.known, fun b hb hlt p hp => ?_, W.next, fun b hb => ?_⟩
      · by_cases e : b = a
        · subst e
          simp only [Store.put, if_true] at hp
          exact W.known p (hl p hp)
        · simp only [Store.put, if_neg e] at hp
          exact W.closed b hb hlt p hp
      · by_cases e : b = a
        · subst e
          have h2 := W.same b hb
          simp only at h2
          rw [h2, (hM b hb).2 this.1] at hm
          cases hm
        · simp only [Store.put, if_neg e]; exact W.same b hb
    · exact W
  | new k v l =>
    simp only [Act.run]
    split
    · rename_i hl
      have hn := W.next
      simp only at hn
      refine ⟨fun b hb => ?_, fun b hb hlt p hp => ?_, ?_, fun b hb => ?_⟩
      · rcases List.mem_cons.1 hb with rfl | hb
        · exact ⟨up _ hn, Nat.lt_succ_self _⟩
        · exact ⟨(W.known b hb).1, Nat.lt_succ_of_lt (W.known b hb).2⟩
      · by_cases e : b = s.next
        · subst e
          simp only [Store.alloc, if_true] at hp
          exact ⟨(W.known p (hl p hp)).1, Nat.lt_succ_of_lt (W.known p (hl p hp)).2⟩
        · simp only [Store.alloc, if_neg e] at hp hlt
          have := W.closed b hb (by simp only; omega) p hp
          exact ⟨this.1, Nat.lt_succ_of_lt this.2⟩
      · exact Nat.le_succ_of_le hn
      · have := (hM b hb).1
        simp only [Store.alloc, if_neg (show b ≠ s.next by omega)]; exact W.same b hb
    · exact W

theorem World.acts {P M : Nat → Prop} {s1 : Store} {s : Store × List Nat} (W : World P M s1 s) (up : ∀ a, s1.next ≤ a → P a)
    (hM : ∀ a, M a → a < s1.next ∧ (P a → (s1.cell a).kind.mutable = false)) (as : List Act) : World P M s1 (as.foldl Act.run s) := by
  induction as generalizing s with
  | nil => exact W
  | cons c as ih => exact ih (W.act up hM c)

/-- a program that knows only results of deep copies cannot change what was there before -/
theorem grown_acts_old {s0 s : Store} (G : s0.Good) (g : Grown s0 s) {K : List Nat} (hK : ∀ a ∈ K, a < s.next ∧ (s0.next ≤ a ∨ Imm s0 a)) (as : List Act) :
    ∀ c, c < s0.next → (s.acts K as).cell c = s0.cell c := by
  have W : World (fun a => s0.next ≤ a ∨ (a < s0.next ∧ Imm s0 a)) (fun a => a < s0.next) s (s, K) := by
    refine ⟨fun a ha => ⟨?_, (hK a ha).1⟩, fun a ha hlt p hp => ?_, Nat.le_refl _, fun _ _ => rfl⟩
    · rcases (hK a ha).2 with h | h
      · exact .inl h
      · by_cases h' : a < s0.next
        · exact .inr ⟨h', h⟩
        · exact .inl (by omega)
    · rcases ha with h | ⟨h, i⟩
      · have := g.new a h hlt p hp
        refine ⟨?_, this.1⟩
        rcases this.2 with h | h
        · exact .inl h
        · by_cases h' : p < s0.next
          · exact .inr ⟨h', h⟩
          · exact .inl (by omega)
      · simp only [g.old a h] at hp
        have := G.closed a h p hp
        exact ⟨.inr ⟨this, i.ptrs p hp⟩, by have := g.le; simp only; omega⟩
  have R := W.acts (fun a h => .inl (by have := g.le; omega)) (fun a h => ⟨by have := g.le; omega, fun h' => by
    rcases h' with h' | ⟨_, h'⟩
    · omega
    · rw [g.old a h]; exact h'.kind⟩) as
  intro c hc
  exact (R.same c hc).trans (g.old c hc)

/-- a program that knows nothing of the copies cannot change them -/
theorem grown_acts_new {s0 s : Store} (G : s0.Good) (g : Grown s0 s) {K : List Nat} (hK : ∀ a ∈ K, a < s0.next) (as : List Act) :
    ∀ c, c < s.next → (s0.next ≤ c ∨ Imm s0 c) → (s.acts K as).cell c = s.cell c := by
  have hle := g.le
  have W : World (fun a => a < s0.next ∨ s.next ≤ a) (fun c => c < s.next ∧ (s0.next ≤ c ∨ Imm s0 c)) s (s, K) := by
    refine ⟨fun a ha => ⟨.inl (hK a ha), by have := hK a ha; simp only; omega⟩, fun a ha hlt p hp => ?_, Nat.le_refl _, fun _ _ => rfl⟩
    rcases ha with h | h
    · simp only [g.old a h] at hp
      have := G.closed a h p hp
      exact ⟨.inl this, by simp only; omega⟩
    · simp only at hlt; omega
  have R := W.acts (fun a h => .inr h) (fun a h => ⟨h.1, fun h' => by
    by_cases hlt : a < s0.next
    · rcases h.2 with h2 | h2
      · omega
      · rw [g.old a hlt]; exact h2.kind
    · rcases h' with h' | h' <;> omega⟩) as
  intro c hc h
  exact R.same c ⟨hc, h⟩

theorem grown_look_new {s0 s : Store} (G : s0.Good) (g : Grown s0 s) {K : List Nat} (hK : ∀ a ∈ K, a < s0.next) (as : List Act) (k : Nat) {c : Nat}
    (hc : c < s.next) (h : s0.next ≤ c ∨ Imm s0 c) : (s.acts K as).look k c = s.look k c := by
  refine look_congr (fun c => c < s.next ∧ (s0.next ≤ c ∨ Imm s0 c)) (fun a ha => ⟨grown_acts_new G g hK as a ha.1 ha.2, fun p hp => ?_⟩) k c ⟨hc, h⟩
  by_cases hlt : a < s0.next
  · rcases ha.2 with h2 | h2
    · omega
    · rw [g.old a hlt] at hp
      have := G.closed a hlt p hp
      exact ⟨by have := g.le; omega, .inr (h2.ptrs p hp)⟩
  · exact g.new a (by omega) ha.1 p hp

theorem grown_look_old {s0 s : Store} (G : s0.Good) (g : Grown s0 s) {K : List Nat} (hK : ∀ a ∈ K, a < s.next ∧ (s0.next ≤ a ∨ Imm s0 a)) (as : List Act) (k : Nat) {c : Nat}
    (hc : c < s0.next) : (s.acts K as).look k c = s0.look k c :=
  look_congr (fun c => c < s0.next) (fun a ha => ⟨grown_acts_old G g hK as a ha, G.closed a ha⟩) k c hc

end ITree
