import Verif.Props.MathSet
/-
C37 for variables in either limit or in a roster, for the `(value, dict)` form of the question, and for iterables.
-/
namespace MSets

/-- the number an item value stands for: itself, or what the dict gives for the name -/
def valueIn (d : Dict) : IVal → Option Num
  | .num n => some n
  | .var v => d.lookup v

/-- C37: whatever limits are variables, a question with a dict is answered as by the interval with the numbers of the dict as limits (limits in order); `(x, dict)` asks the same. -/
theorem C37_variable_limits (a b : Item) (n m x : Num) (int compl : Bool) (d : Dict) (ha : valueIn d a.val = some n) (hb : valueIn d b.val = some m)
    (hn : n ≠ .nan) (hm : m ≠ .nan) (hnm : n.pos < m.pos) :
    (mkInterval a b int compl).contains (.num x) (some d) = (mkInterval ⟨.num n, a.compl⟩ ⟨.num m, b.compl⟩ int compl).contains (.num x) none ∧
    (mkInterval a b int compl).contains (.pair (.num x) d) none = (mkInterval ⟨.num n, a.compl⟩ ⟨.num m, b.compl⟩ int compl).contains (.num x) none := by
  have g : ¬ m.lt n = true := by rw [lt_iff hm hn]; exact hnm.not_gt
  have e : ¬ m.eq n = true := by rw [eq_iff hm hn]; exact hnm.ne'
  obtain ⟨av, ac⟩ := a
  obtain ⟨bv, bc⟩ := b
  cases av with
  | num a =>
    simp only [valueIn, Option.some.injEq] at ha; subst ha
    cases bv with
    | num b =>
      simp only [valueIn, Option.some.injEq] at hb; subst hb
      simp [mkInterval, IVal.isVar, Item.gt, IVal.eq, g, e, Interval.contains, Interval.body, Interval.limits, substVar, noDict, Interval.test, Interval.ops]
    | var w =>
      simp only [valueIn] at hb
      simp [mkInterval, IVal.isVar, Item.gt, IVal.eq, g, e, Interval.contains, Interval.body, Interval.limits, substVar, hb, noDict, Interval.test, Interval.ops]
  | var v =>
    simp only [valueIn] at ha
    cases bv with
    | num b =>
      simp only [valueIn, Option.some.injEq] at hb; subst hb
      simp [mkInterval, IVal.isVar, Item.gt, IVal.eq, g, e, Interval.contains, Interval.body, Interval.limits, substVar, ha, noDict, Interval.test, Interval.ops]
    | var w =>
      simp only [valueIn] at hb
      have hvw : (w == v) = false := by
        rw [beq_eq_false_iff_ne]; rintro rfl
        rw [ha] at hb; simp only [Option.some.injEq] at hb; subst hb
        exact absurd hnm (lt_irrefl _)
      simp [mkInterval, IVal.isVar, Item.gt, IVal.eq, g, e, Interval.contains, Interval.body, Interval.limits, substVar, ha, hb, hvw, noDict, Interval.test, Interval.ops]

theorem rosterItems_sub (l : List Item) : ∀ v ∈ rosterItems l, ∃ i ∈ l, i.val = v := by
  induction l with
  | nil => simp [rosterItems]
  | cons i is ih =>
    intro v hv
    simp only [rosterItems] at hv
    split at hv
    · rcases List.mem_cons.1 hv with rfl | h
      · exact ⟨i, by simp, rfl⟩
      · obtain ⟨j, hj, e⟩ := ih v h; exact ⟨j, by simp [hj], e⟩
    · obtain ⟨j, hj, e⟩ := ih v hv; exact ⟨j, by simp [hj], e⟩

theorem rosterItems_cover (l : List Item) (hl : ∀ i ∈ l, i.compl = false) : ∀ i ∈ l, i.val ∈ rosterItems l ∨ ∃ j ∈ rosterItems l, j.eq i.val = true := by
  induction l with
  | nil => simp
  | cons a is ih =>
    intro i hi
    have hc := hl a (by simp)
    simp only [rosterItems, hc, Bool.not_false, Bool.true_and]
    rcases List.mem_cons.1 hi with rfl | h
    · split
      · exact .inl (by simp)
      · rename_i h
        simp only [Bool.not_eq_true, Bool.not_eq_false', List.any_eq_true] at h
        exact .inr h
    · rcases ih (fun i hi => hl i (by simp [hi])) i h with h | ⟨j, h1, h2⟩
      · refine .inl ?_; split
        · exact List.mem_cons_of_mem _ h
        · exact h
      · refine .inr ⟨j, ?_, h2⟩; split
        · exact List.mem_cons_of_mem _ h1
        · exact h1

/-- C37: a roster with variables has exactly the numbers its items stand for under the given dict. -/
theorem C37_roster_vars (items : List Item) (x : Num) (compl : Bool) (hx : x ≠ .nan) (hi : ∀ i ∈ items, i.compl = false) (d : Dict)
    (hd : ∀ i ∈ items, ∀ n, valueIn d i.val = some n → n ≠ .nan) :
    ∃ r, (mkRoster items compl).contains (.num x) (some d) = .ok r ∧ (r = true ↔ ((∃ i ∈ items, ∃ n, valueIn d i.val = some n ∧ n.pos = x.pos) ↔ compl = false)) := by
  have key : rosterHit (rosterItems items) (rosterRepl (rosterItems items) d) (.num x) = true ↔ ∃ i ∈ items, ∃ n, valueIn d i.val = some n ∧ n.pos = x.pos := by
    simp only [rosterHit, Bool.or_eq_true, List.any_eq_true]
    constructor
    · rintro (⟨v, hv, he⟩ | ⟨n, hn, he⟩)
      · obtain ⟨i, h1, rfl⟩ := rosterItems_sub _ v hv
        cases hvi : i.val with
        | var w => rw [hvi] at he; simp [IVal.eq] at he
        | num n =>
          rw [hvi] at he; simp only [IVal.eq] at he
          have hnn := hd i h1 n (by simp [valueIn, hvi])
          exact ⟨i, h1, n, by simp [valueIn, hvi], (eq_iff hnn hx).1 he⟩
      · unfold rosterRepl at hn
        obtain ⟨v, hv, hn⟩ := List.mem_filterMap.1 hn
        obtain ⟨i, h1, rfl⟩ := rosterItems_sub _ v hv
        cases hvi : i.val with
        | num n => rw [hvi] at hn; simp at hn
        | var w =>
          rw [hvi] at hn; simp only at hn
          have hnn := hd i h1 n (by simp [valueIn, hvi, hn])
          exact ⟨i, h1, n, by simp [valueIn, hvi, hn], (eq_iff hnn hx).1 he⟩
    · rintro ⟨i, h1, n, hn, he⟩
      have hnn := hd i h1 n hn
      cases hvi : i.val with
      | num k =>
        rw [hvi] at hn; simp only [valueIn, Option.some.injEq] at hn; subst hn
        refine .inl ?_
        rcases rosterItems_cover items hi i h1 with h | ⟨j, h2, h3⟩
        · exact ⟨_, hvi ▸ h, by simp only [IVal.eq]; exact (eq_iff hnn hx).2 he⟩
        · rw [hvi] at h3
          cases j with
          | var w => simp [IVal.eq] at h3
          | num k' =>
            simp only [IVal.eq] at h3
            obtain ⟨i', g1, g2⟩ := rosterItems_sub _ _ h2
            have hk' := hd i' g1 k' (by simp [valueIn, g2])
            exact ⟨_, h2, by simp only [IVal.eq]; exact (eq_iff hk' hx).2 (((eq_iff hk' hnn).1 h3).trans he)⟩
      | var w =>
        rw [hvi] at hn; simp only [valueIn] at hn
        refine .inr ⟨n, ?_, (eq_iff hnn hx).2 he⟩
        have hm : IVal.var w ∈ rosterItems items := by
          rcases rosterItems_cover items hi i h1 with h | ⟨j, h2, h3⟩
          · exact hvi ▸ h
          · rw [hvi] at h3
            cases j with
            | num k => simp [IVal.eq] at h3
            | var w' =>
              simp only [IVal.eq, beq_iff_eq] at h3
              exact h3 ▸ h2
        exact List.mem_filterMap.2 ⟨_, hm, hn⟩
  simp only [mkRoster, MSet.contains, rosterContains, rosterBody, rosterTest, replOf]
  cases compl
  · exact ⟨_, rfl, by simpa using key⟩
  · refine ⟨_, rfl, ?_⟩
    simp only [if_true, ← key, Bool.true_eq_false, iff_false]
    simp

/-- no element of the list is a `(value, dict)` pair -/
def NoPairs (l : List El) : Prop := ∀ v ∈ l, ∀ e d, v ≠ .pair e d

/-- C37: an iterable is in an interval or roster exactly when every element is. -/
theorem C37_iterable (s : MSet) (l : List El) (hl : NoPairs l) (d : Option Dict) (hs : (∃ i, s = .interval i) ∨ ∃ items c, s = .roster items c) :
    s.contains (.seq l) d = .ok true ↔ ∀ v ∈ l, s.contains v d = .ok true := by
  rcases hs with ⟨i, rfl⟩ | ⟨items, c, rfl⟩
  · show i.bodyAll (i.limits d) l = .ok true ↔ ∀ v ∈ l, i.contains v d = .ok true
    induction l with
    | nil => simp [Interval.bodyAll]
    | cons v vs ih =>
      have hv := hl v (by simp)
      have e : i.enter (i.limits d) v = i.contains v d := by cases v <;> first | exact absurd rfl (hv _ _) | rfl
      simp only [Interval.bodyAll, e, List.mem_cons, forall_eq_or_imp]
      rw [← ih fun v h => hl v (by simp [h])]
      generalize i.contains v d = r
      rcases r with _ | _ | _ <;> simp
  · show rosterAll items c (replOf items d) l = .ok true ↔ ∀ v ∈ l, rosterContains items c v d = .ok true
    induction l with
    | nil => simp [rosterAll]
    | cons v vs ih =>
      have hv := hl v (by simp)
      have e : rosterEnter items c (replOf items d) v = rosterContains items c v d := by cases v <;> first | exact absurd rfl (hv _ _) | rfl
      simp only [rosterAll, e, List.mem_cons, forall_eq_or_imp]
      rw [← ih fun v h => hl v (by simp [h])]
      generalize rosterContains items c v d = r
      rcases r with _ | _ | _ <;> simp

example : valueIn [("a", .int 2), ("b", .int 5)] (.var "b") = some (.int 5) := by decide
example : (mkInterval ⟨.var "a", false⟩ ⟨.var "b", true⟩ false false).contains (.num (.int 5)) (some [("a", .int 2), ("b", .int 5)]) = .ok false ∧
    (mkInterval ⟨.var "a", false⟩ ⟨.var "b", true⟩ false false).contains (.pair (.num (.int 4)) [("a", .int 2), ("b", .int 5)]) none = .ok true := by decide +kernel
example : (mkRoster [⟨.var "a", false⟩, ⟨.num (.int 7), false⟩] false).contains (.num (.int 2)) (some [("a", .int 2)]) = .ok true := by decide +kernel
example : (MSet.interval (mkInterval ⟨.num (.int 1), false⟩ ⟨.num (.int 5), false⟩ false false)).contains (.seq [.num (.int 2), .num (.int 9)]) none = .ok false := by decide +kernel

end MSets
