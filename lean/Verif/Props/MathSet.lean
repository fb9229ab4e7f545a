import Verif.Proofs.MathSet
import Mathlib.Tactic.Linarith
import Mathlib.Tactic.NormNum
/-
C37 interval membership, C38 complement, C39 union and intersection, C40 iteration and cardinality.
-/
namespace MSets

/-! ### C37 -/

/-- Membership of a number in an interval with numeric limits `a`, `b` (in any order, each open or closed, finite or infinite): the answer is a bool and it is True exactly when the number
lies between the limits – for the complement exactly when it does not. -/
theorem C37_interval (a b x : Num) (aOpen bOpen compl : Bool) (ha : a ≠ .nan) (hb : b ≠ .nan) (hx : x ≠ .nan) (d : Option Dict) :
    ∃ r, (mkInterval ⟨.num a, aOpen⟩ ⟨.num b, bOpen⟩ false compl).contains (.num x) d = .ok r ∧
      (r = true ↔ if compl then ¬ Inside a.pos aOpen b.pos bOpen x.pos else Inside a.pos aOpen b.pos bOpen x.pos) := by
  obtain ⟨lo, hi, h1, h2, h3, h4, h5, h6, _, h7⟩ := mkInterval_num a b aOpen bOpen false compl ha hb
  generalize mkInterval ⟨.num a, aOpen⟩ ⟨.num b, bOpen⟩ false compl = s at *
  have hl : s.limits d = (.num lo, .num hi) := by cases d <;> simp [Interval.limits, h1, h2, substVar]
  obtain ⟨r, hr, hb⟩ := ops_num (s := s) h3 h4 hx
  rw [h7] at hb
  simp only [Interval.contains, Interval.body, hl, Interval.test, h5, hr, h6]
  cases compl
  · exact ⟨r, rfl, by simpa using hb⟩
  · exact ⟨!r, rfl, by simp [← hb]⟩

/-- the integer-only option: additionally the number must be an integer value (of whatever type) -/
theorem C37_interval_int (a b x : Num) (aOpen bOpen compl : Bool) (ha : a ≠ .nan) (hb : b ≠ .nan) (hx : ∃ q, x.rat = some q) (d : Option Dict) :
    ∃ r, (mkInterval ⟨.num a, aOpen⟩ ⟨.num b, bOpen⟩ true compl).contains (.num x) d = .ok r ∧
      (r = true ↔ if compl then ¬ (x.isInteger ∧ Inside a.pos aOpen b.pos bOpen x.pos) else x.isInteger ∧ Inside a.pos aOpen b.pos bOpen x.pos) := by
  obtain ⟨lo, hi, h1, h2, h3, h4, h5, h6, _, h7⟩ := mkInterval_num a b aOpen bOpen true compl ha hb
  generalize mkInterval ⟨.num a, aOpen⟩ ⟨.num b, bOpen⟩ true compl = s at *
  have hl : s.limits d = (.num lo, .num hi) := by cases d <;> simp [Interval.limits, h1, h2, substVar]
  have hxn : x ≠ .nan := by rintro rfl; obtain ⟨q, hq⟩ := hx; simp [Num.rat] at hq
  obtain ⟨r, hr, hb⟩ := ops_num (s := s) h3 h4 hxn
  obtain ⟨t, ht, hti⟩ := notInt_ok hx
  rw [h7] at hb
  simp only [Interval.contains, Interval.body, hl, Interval.test, h5, hr, h6, ht]
  cases t
  · have hi := hti.1 rfl
    cases compl
    · exact ⟨r, rfl, by simp [hi, hb]⟩
    · exact ⟨!r, rfl, by simp [hi, ← hb]⟩
  · have hi : ¬ x.isInteger := fun h => by simpa using hti.2 h
    cases compl
    · exact ⟨false, rfl, by simp [hi]⟩
    · exact ⟨true, rfl, by simp [hi]⟩

/-- limits given in the wrong order are exchanged (each keeps its own openness): the set is the same -/
theorem C37_swapped (a b x : Num) (aOpen bOpen int compl : Bool) (ha : a ≠ .nan) (hb : b ≠ .nan) (hx : x ≠ .nan) (d : Option Dict) :
    (mkInterval ⟨.num a, aOpen⟩ ⟨.num b, bOpen⟩ int compl).contains (.num x) d = (mkInterval ⟨.num b, bOpen⟩ ⟨.num a, aOpen⟩ int compl).contains (.num x) d := by
  have hI : Inside a.pos aOpen b.pos bOpen x.pos ↔ Inside b.pos bOpen a.pos aOpen x.pos := by
    unfold Inside
    rcases lt_trichotomy a.pos b.pos with h | h | h
    · simp [h, h.not_gt]
    · simp [h, or_comm]
    · simp [h, h.not_gt]
  obtain ⟨lo, hi, h1, h2, h3, h4, h5, h6, _, h7⟩ := mkInterval_num a b aOpen bOpen int compl ha hb
  obtain ⟨lo', hi', h1', h2', h3', h4', h5', h6', _, h7'⟩ := mkInterval_num b a bOpen aOpen int compl hb ha
  generalize mkInterval ⟨.num a, aOpen⟩ ⟨.num b, bOpen⟩ int compl = s at *
  generalize mkInterval ⟨.num b, bOpen⟩ ⟨.num a, aOpen⟩ int compl = s' at *
  have hl : s.limits d = (.num lo, .num hi) := by cases d <;> simp [Interval.limits, h1, h2, substVar]
  have hl' : s'.limits d = (.num lo', .num hi') := by cases d <;> simp [Interval.limits, h1', h2', substVar]
  obtain ⟨r, hr, hb⟩ := ops_num (s := s) h3 h4 hx
  obtain ⟨r', hr', hb'⟩ := ops_num (s := s') h3' h4' hx
  rw [h7] at hb; rw [h7'] at hb'
  have : r = r' := by rw [Bool.eq_iff_iff, hb, hb', hI]
  simp only [Interval.contains, Interval.body, hl, hl', Interval.test, h5, h5', hr, hr', h6, h6', this]

/-- in an integer-only interval infinities raise OverflowError instead of being answered (they are accepted without the option) -/
theorem C37_int_infinity (s : Interval) (h : s.int = true) (d : Option Dict) :
    s.contains (.num .posInf) d = .error .overflow ∧ s.contains (.num .negInf) d = .error .overflow := by
  simp [Interval.contains, Interval.body, Interval.test, h, Num.notInt, Except.map]

/-- a variable limit works as the number given for it (in the dict) would – for limits in order -/
theorem C37_variable_limit (n m x : Num) (nOpen mOpen int compl : Bool) (v : String) (d : Dict) (hv : d.lookup v = some n) (hn : n ≠ .nan) (hm : m ≠ .nan) (hnm : n.pos < m.pos)  :
    (mkInterval ⟨.var v, nOpen⟩ ⟨.num m, mOpen⟩ int compl).contains (.num x) (some d) = (mkInterval ⟨.num n, nOpen⟩ ⟨.num m, mOpen⟩ int compl).contains (.num x) none := by
  have g : ¬ m.lt n = true := by rw [lt_iff hm hn]; exact hnm.not_gt
  have e : ¬ m.eq n = true := by rw [eq_iff hm hn]; exact hnm.ne'
  simp [mkInterval, IVal.isVar, Item.gt, IVal.eq, g, e, Interval.contains, Interval.body, Interval.limits, substVar, hv, Interval.test, Interval.ops]

/-- a variable without a value raises TypeError (for the lower limit always, for the upper one unless the lower limit already excludes the number) -/
theorem C37_variable_missing (m x : Num) (vOpen mOpen compl : Bool) (v : String) (d : Option Dict) (hv : ∀ d', d = some d' → d'.lookup v = none) :
    (mkInterval ⟨.var v, vOpen⟩ ⟨.num m, mOpen⟩ false compl).contains (.num x) d = .error .type := by
  cases d with
  | none => simp [mkInterval, IVal.isVar, IVal.eq, Interval.contains, Interval.body, Interval.limits, Interval.test, Interval.ops, cmpLower, Except.map]
  | some d => simp [mkInterval, IVal.isVar, IVal.eq, Interval.contains, Interval.body, Interval.limits, substVar, hv d rfl, Interval.test, Interval.ops, cmpLower, Except.map]

/-- membership of a roster: exactly the listed numbers, whatever their type -/
theorem C37_roster (items : List Item) (x : Num) (compl : Bool) (hx : x ≠ .nan) (hi : ∀ i ∈ items, ∃ n : Num, i = ⟨.num n, false⟩ ∧ n ≠ .nan) (d : Option Dict) :
    ∃ r, (mkRoster items compl).contains (.num x) d = .ok r ∧ (r = true ↔ if compl then ¬ ∃ n : Num, Item.mk (.num n) false ∈ items ∧ n.pos = x.pos else ∃ n : Num, Item.mk (.num n) false ∈ items ∧ n.pos = x.pos) := by
  have key : ∀ (l : List Item), (∀ i ∈ l, ∃ n : Num, i = ⟨.num n, false⟩ ∧ n ≠ .nan) →
      ((rosterItems l).any (fun i => i.eq (.num x)) = true ↔ ∃ n : Num, Item.mk (.num n) false ∈ l ∧ n.pos = x.pos) ∧ ∀ i ∈ rosterItems l, ∃ n : Num, i = .num n ∧ n ≠ .nan := by
    intro l
    induction l with
    | nil => intro _; simp [rosterItems]
    | cons i is ih =>
      intro hl
      obtain ⟨ih1, ih2⟩ := ih fun i hi => hl i (by simp [hi])
      obtain ⟨n, rfl, hn⟩ := hl i (by simp)
      simp only [rosterItems]
      split
      · refine ⟨?_, ?_⟩
        · have en : (IVal.num n).eq (.num x) = n.eq x := rfl
          rw [List.any_cons, Bool.or_eq_true, ih1, en, eq_iff hn hx]
          simp only [List.mem_cons, Item.mk.injEq, IVal.num.injEq, and_true]
          constructor
          · rintro (h | ⟨m, h1, h2⟩)
            · exact ⟨n, .inl rfl, h⟩
            · exact ⟨m, .inr h1, h2⟩
          · rintro ⟨m, rfl | h1, h2⟩
            · exact .inl h2
            · exact .inr ⟨m, h1, h2⟩
        · intro j hj
          rcases List.mem_cons.1 hj with rfl | hj
          · exact ⟨n, rfl, hn⟩
          · exact ih2 j hj
      · rename_i hc
        refine ⟨?_, ih2⟩
        rw [ih1]
        constructor
        · rintro ⟨m, h1, h2⟩; exact ⟨m, by simp [h1], h2⟩
        · rintro ⟨m, h1, h2⟩
          rcases List.mem_cons.1 h1 with e | h1
          · obtain rfl : m = n := by simpa using e
            simp only [Bool.not_false, Bool.true_and, Bool.not_eq_true', Bool.not_eq_false, List.any_eq_true] at hc
            obtain ⟨j, hj, hj2⟩ := hc
            obtain ⟨k, rfl, hk⟩ := ih2 j hj
            simp only [IVal.eq, eq_iff hk hn] at hj2
            exact ih1.1 (List.any_eq_true.2 ⟨_, hj, by simp only [IVal.eq, eq_iff hk hx]; exact hj2.trans h2⟩)
          · exact ⟨m, h1, h2⟩
  obtain ⟨k1, k2⟩ := key items hi
  have hr : replOf (rosterItems items) d = [] := by
    cases d with
    | none => rfl
    | some d =>
      simp only [replOf, rosterRepl, List.filterMap_eq_nil_iff]
      intro j hj
      obtain ⟨n, rfl, _⟩ := k2 j hj
      rfl
  simp only [mkRoster, MSet.contains, rosterContains, rosterBody, rosterTest, rosterHit, hr, List.any_nil, Bool.or_false]
  cases compl
  · exact ⟨_, rfl, by simpa using k1⟩
  · refine ⟨_, rfl, ?_⟩
    simp only [if_true, ← k1]; simp

/-! ### C38 -/

/-- switching the complement twice gives the same set object -/
theorem C38_switch_twice (s : MSet) : s.switch.switch = s := by
  cases s <;> simp [MSet.switch]

/-- negation of an answer; exceptions stay -/
def notR (r : Except MErr Bool) : Except MErr Bool := r.map (!·)

theorem interval_scalar_compl (s : Interval) (lim : IVal × IVal) {v : El} (hv : v.scalar) :
    ({ s with compl := !s.compl } : Interval).body lim v = notR (s.body lim v) ∧ ({ s with compl := !s.compl } : Interval).enter lim v = notR (s.enter lim v) := by
  have ho : ∀ x, ({ s with compl := !s.compl } : Interval).ops lim x = s.ops lim x := fun x => rfl
  cases v with
  | num x =>
    simp only [Interval.body, Interval.enter, Interval.test, ho, notR, and_self]
    generalize (if s.int = true then _ else _ : Except MErr Bool) = r
    cases r with
    | error e => rfl
    | ok b => cases hc : s.compl <;> simp [Except.map]
  | str t => simp [Interval.body, Interval.enter, notR, Except.map]
  | other => simp [Interval.body, Interval.enter, notR, Except.map]
  | seq l => exact hv.elim
  | pair e d => exact hv.elim

/-- For every set object (interval, roster, combination – with numbers or variables) and every single object asked for, with or without values for the variables: the complement answers the
opposite, and raises exactly when the set raises. -/
theorem C38_complement_partial (s : MSet) (hs : s.isMSet = true) {v : El} (hv : v.scalar) (d : Option Dict) : s.switch.contains v d = notR (s.contains v d) := by
  cases s with
  | interval s =>
    have e : ∀ d, ({ s with compl := !s.compl } : Interval).limits d = s.limits d := fun d => by cases d <;> rfl
    simp only [MSet.switch, MSet.contains]
    have h := (interval_scalar_compl s (s.limits d) hv).1
    cases v <;> first | exact hv.elim | (simp only [Interval.contains, e]; exact h)
  | roster items c =>
    simp only [MSet.switch, MSet.contains]
    cases v <;> first | exact hv.elim | (cases c <;> simp [rosterContains, rosterBody, rosterTest, notR, Except.map])
  | combine items u c =>
    simp only [MSet.switch, MSet.contains, notR]
    cases MSet.loop u items (unpair v d).1 (unpair v d).2 none with
    | error e => rfl
    | ok b => cases b <;> cases u <;> cases c <;> rfl
  | other f n => simp [MSet.isMSet] at hs

/-- … for tuples `(value, variables)` with a single value too -/
theorem C38_complement_vars (s : MSet) (hs : s.isMSet = true) {v : El} (hv : v.scalar) (d : Dict) : s.switch.contains (.pair v d) none = notR (s.contains (.pair v d) none) := by
  cases s with
  | interval s =>
    have e : ∀ d, ({ s with compl := !s.compl } : Interval).limits d = s.limits d := fun d => by cases d <;> rfl
    simp only [MSet.switch, MSet.contains, Interval.contains, noDict, if_true, e]
    exact (interval_scalar_compl s _ hv).1
  | roster items c =>
    simp only [MSet.switch, MSet.contains, rosterContains, noDict, if_true]
    cases v <;> first | exact hv.elim | (cases c <;> simp [rosterBody, rosterTest, notR, Except.map])
  | combine items u c =>
    simp only [MSet.switch, MSet.contains, notR]
    cases MSet.loop u items (unpair (.pair v d) none).1 (unpair (.pair v d) none).2 none with
    | error e => rfl
    | ok b => cases b <;> cases u <;> cases c <;> rfl
  | other f n => simp [MSet.isMSet] at hs

/-- An iterable is in a set iff all its elements are – also for the complement. So a mixed iterable is neither in the set nor in its complement: the complement is a negation for single
objects only. -/
theorem C38_not_for_iterables : ∃ (s : MSet) (v : El), s.isMSet = true ∧ s.contains v none = .ok false ∧ s.switch.contains v none = .ok false :=
  ⟨.interval (mkInterval ⟨.num (.int 1), false⟩ ⟨.num (.int 2), false⟩ false false), .seq [.num (.int 1), .num (.int 3)], rfl, by decide +kernel, by decide +kernel⟩

/-! ### C39 -/

/-- the answers of the members, if none raises -/
def answers (items : List MSet) (v : El) (d : Option Dict) (bs : List Bool) : Prop := items.map (fun s => s.contains v d) = bs.map Except.ok

theorem loop_answers (stop : Bool) : ∀ (items : List MSet) (v : El) (d : Option Dict) (bs : List Bool), answers items v d bs → MSet.loop stop items v d none = .ok (bs.any (· == stop)) := by
  intro items
  induction items with
  | nil => intro v d bs h; cases bs <;> simp_all [answers, MSet.loop, loopEnd]
  | cons s ss ih =>
    intro v d bs h
    cases bs with
    | nil => simp [answers] at h
    | cons b bs =>
      simp only [answers, List.map_cons, List.cons.injEq] at h
      simp only [MSet.loop, h.1, loopStep, List.any_cons]
      by_cases hb : b = stop
      · simp [hb]
      · simp [hb, ih v d bs h.2]

/-- union: when no member raises, a value is in the union iff it is in some member, in its complement iff in none -/
theorem C39_union (items : List MSet) (compl : Bool) (v : El) (d : Option Dict) (hv : ∀ e d', v ≠ .pair e d') (bs : List Bool) (h : answers items v d bs) :
    (MSet.combine items true compl).contains v d = .ok (bs.any id != compl) := by
  have hu : unpair v d = (v, d) := by cases v <;> first | rfl | exact absurd rfl (hv _ _)
  simp only [MSet.contains, hu, loop_answers true items v d bs h, Except.map]
  have : (bs.any fun x => x == true) = bs.any id := by congr 1; funext x; simp
  rw [this]
  cases bs.any id <;> cases compl <;> rfl

/-- intersection: when no member raises, a value is in the intersection iff it is in every member -/
theorem C39_intersection (items : List MSet) (compl : Bool) (v : El) (d : Option Dict) (hv : ∀ e d', v ≠ .pair e d') (bs : List Bool) (h : answers items v d bs) :
    (MSet.combine items false compl).contains v d = .ok (bs.all id != compl) := by
  have hu : unpair v d = (v, d) := by cases v <;> first | rfl | exact absurd rfl (hv _ _)
  simp only [MSet.contains, hu, loop_answers false items v d bs h, Except.map]
  have : (bs.any fun x => x == false) = !bs.all id := by
    clear h
    induction bs with
    | nil => rfl
    | cons b bs ih => rw [List.any_cons, List.all_cons, ih]; cases b <;> rfl
  rw [this]
  cases bs.all id <;> cases compl <;> rfl

/-- union with raising members: one hit is enough, whatever other mSet members raise -/
theorem C39_union_hit (items : List MSet) (compl : Bool) (v : El) (d : Option Dict) (hv : ∀ e d', v ≠ .pair e d') (hm : ∀ s ∈ items, s.isMSet = true)
    (h : ∃ s ∈ items, s.contains v d = .ok true) : (MSet.combine items true compl).contains v d = .ok (!compl) := by
  have hu : unpair v d = (v, d) := by cases v <;> first | rfl | exact absurd rfl (hv _ _)
  have : ∀ (l : List MSet) sv, (∀ s ∈ l, s.isMSet = true) → (∃ s ∈ l, s.contains v d = .ok true) → MSet.loop true l v d sv = .ok true := by
    intro l
    induction l with
    | nil => rintro sv _ ⟨s, hs, _⟩; simp at hs
    | cons s ss ih =>
      rintro sv hm ⟨t, ht, htc⟩
      simp only [MSet.loop, loopStep]
      rcases List.mem_cons.1 ht with rfl | ht
      · simp [htc]
      · have := fun sv => ih sv (fun s hs => hm s (by simp [hs])) ⟨t, ht, htc⟩
        split
        · split
          · rfl
          · exact this _
        · rw [if_pos (hm s (by simp))]; exact this _
  simp only [MSet.contains, hu, this items none hm h, Except.map]
  cases compl <;> rfl

/-- De Morgan, exceptions included: the complement of the union answers like the intersection of the complements, and vice versa, for every single object -/
theorem C39_de_morgan (items : List MSet) (union compl : Bool) {v : El} (hv : v.scalar) (d : Option Dict) (hm : ∀ s ∈ items, s.isMSet = true) :
    (MSet.combine items union (!compl)).contains v d = (MSet.combine (items.map MSet.switch) (!union) compl).contains v d := by
  have hu : unpair v d = (v, d) := by cases v <;> first | rfl | exact hv.elim
  have : ∀ (l : List MSet) sv, (∀ s ∈ l, s.isMSet = true) → MSet.loop union l v d sv = MSet.loop (!union) (l.map MSet.switch) v d sv := by
    intro l
    induction l with
    | nil => intro _ _; rfl
    | cons s ss ih =>
      intro sv hm
      have hs := hm s (by simp)
      have hs' : s.switch.isMSet = true := by cases s <;> simp_all [MSet.switch, MSet.isMSet]
      simp only [MSet.loop, List.map_cons, C38_complement_partial s hs hv d, hs, hs', loopStep]
      have ih := fun sv => ih sv (fun s hs => hm s (by simp [hs]))
      cases s.contains v d with
      | error e => simp [notR, Except.map, ih]
      | ok b => cases b <;> cases union <;> simp [notR, Except.map, ih]
  simp only [MSet.contains, hu, this items none hm]
  cases MSet.loop (!union) (items.map MSet.switch) v d none with
  | error e => rfl
  | ok b => cases b <;> cases union <;> cases compl <;> rfl

/-! ### C40 -/

/-- Iterating over an integer interval with integer limits (in any order, each open or closed) delivers exactly its members in increasing order.  Partial: equal limits of which exactly one
is open are excluded (see `C40_iter_halfopen_point`). -/
theorem C40_iter_partial (a b : Int) (aOpen bOpen : Bool) (hd : a = b → aOpen = bOpen) (d : Option Dict) :
    ∃ zs : List Int, (mkInterval ⟨.num (.int a), aOpen⟩ ⟨.num (.int b), bOpen⟩ true false).iter = .ok (zs.map Num.int) ∧ zs.Pairwise (· < ·) ∧
      ∀ z, z ∈ zs ↔ (mkInterval ⟨.num (.int a), aOpen⟩ ⟨.num (.int b), bOpen⟩ true false).contains (.num (.int z)) d = .ok true := by
  obtain ⟨lo, hi, lop, hip, h1, h2, e⟩ := mkInterval_int a b aOpen bOpen true false
  rw [e]
  refine ⟨_, intInterval_iter _ _ _ _ _ _, rangeInt_sorted _ _, fun z => ?_⟩
  rw [mem_rangeInt, intInterval_contains]
  by_cases heq : lo = hi
  · have : lop = hip := by
      have hab : a = b := by omega
      have := hd hab
      rcases h2 with ⟨_, r1, _, r2⟩ | ⟨_, r1, _, r2⟩ <;> simp [r1, r2, this]
    subst this
    simp [heq]
  · simp [heq]

/-- Disagreement: `mSetInterval(5, (5, True), True)` – limits equal, one closed, one open – contains 5 (and has cardinality 1), but iterating delivers nothing. -/
theorem C40_iter_halfopen_point (a : Int) :
    (mkInterval ⟨.num (.int a), false⟩ ⟨.num (.int a), true⟩ true false).iter = .ok [] ∧
    (mkInterval ⟨.num (.int a), false⟩ ⟨.num (.int a), true⟩ true false).contains (.num (.int a)) none = .ok true ∧
    (mkInterval ⟨.num (.int a), false⟩ ⟨.num (.int a), true⟩ true false).card = .int 1 := by
  obtain ⟨lo, hi, lop, hip, h1, h2, e⟩ := mkInterval_int a a false true true false
  have e1 : lo = a := by omega
  have e2 : hi = a := by omega
  rw [e1, e2] at e
  clear e2 e1 h1
  have hx : (lop = false ∧ hip = true) ∨ (lop = true ∧ hip = false) := by rcases h2 with ⟨_, r1, _, r2⟩ | ⟨_, r1, _, r2⟩ <;> simp [r1, r2]
  rw [e, intInterval_iter, intInterval_contains]
  refine ⟨?_, ?_, ?_⟩
  · have : rangeInt (a + b2i lop) (a - b2i hip + 1) = [] := by
      simp only [rangeInt]; rcases hx with ⟨rfl, rfl⟩ | ⟨rfl, rfl⟩ <;> simp [b2i]
    rw [this]; rfl
  · rcases hx with ⟨rfl, rfl⟩ | ⟨rfl, rfl⟩ <;> simp [b2i]
  · simp only [Interval.card, Bool.false_eq_true, if_false, intInterval_card0 _ _ _ _ _ _ _ (le_refl a)]
    rcases hx with ⟨rfl, rfl⟩ | ⟨rfl, rfl⟩ <;> simp

/-- The cardinality of an integer interval with integer limits is the number of its members. -/
theorem C40_cardinality (a b : Int) (aOpen bOpen : Bool) (d : Option Dict) :
    ∃ zs : List Int, zs.Nodup ∧ (∀ z, z ∈ zs ↔ (mkInterval ⟨.num (.int a), aOpen⟩ ⟨.num (.int b), bOpen⟩ true false).contains (.num (.int z)) d = .ok true) ∧
      (mkInterval ⟨.num (.int a), aOpen⟩ ⟨.num (.int b), bOpen⟩ true false).card = .int zs.length := by
  obtain ⟨lo, hi, lop, hip, h1, h2, e⟩ := mkInterval_int a b aOpen bOpen true false
  rw [e]
  have hc : ∀ l u : Bool, ∀ z, z ∈ rangeInt (lo + b2i l) (hi - b2i u + 1) ↔ _ := fun l u z => mem_rangeInt.trans (intInterval_contains lo hi z lop hip l u d).symm
  refine ⟨rangeInt (lo + b2i (if lo = hi then lop && hip else lop)) (hi - b2i (if lo = hi then lop && hip else hip) + 1), (rangeInt_sorted _ _).imp (fun h => by omega), hc _ _, ?_⟩
  simp only [Interval.card, Bool.false_eq_true, if_false, intInterval_card0 lo hi _ _ _ _ _ (by omega), rangeInt_length]
  by_cases heq : lo = hi
  · subst heq; cases lop <;> cases hip <;> simp [b2i]
  · simp [heq]

/-- `is_empty_set` of an integer interval with integer limits is True exactly when it has no member. -/
theorem C40_empty (a b : Int) (aOpen bOpen : Bool) (d : Option Dict) :
    (mkInterval ⟨.num (.int a), aOpen⟩ ⟨.num (.int b), bOpen⟩ true false).isEmpty = true ↔
      ∀ z : Int, (mkInterval ⟨.num (.int a), aOpen⟩ ⟨.num (.int b), bOpen⟩ true false).contains (.num (.int z)) d ≠ .ok true := by
  obtain ⟨zs, _, hm, hc⟩ := C40_cardinality a b aOpen bOpen d
  have h1 : (mkInterval ⟨.num (.int a), aOpen⟩ ⟨.num (.int b), bOpen⟩ true false).compl = false := rfl
  simp only [Interval.card, h1, Bool.false_eq_true, if_false] at hc
  simp only [Interval.isEmpty, h1, Bool.false_eq_true, if_false, hc, Num.eq, decide_eq_true_eq]
  constructor
  · intro h z hz
    have := (hm z).2 hz
    have : zs = [] := by simpa using h
    simp_all
  · intro h
    have : zs = [] := List.eq_nil_iff_forall_not_mem.2 fun z hz => h z ((hm z).1 hz)
    simp [this]

/-- a float interval with finite or infinite limits is reported empty exactly when no number lies in it (numbers: all rationals and the infinities) -/
theorem C40_empty_float (a b : Num) (aOpen bOpen : Bool) (ha : a ≠ .nan) (hb : b ≠ .nan) :
    (mkInterval ⟨.num a, aOpen⟩ ⟨.num b, bOpen⟩ false false).isEmpty = true ↔ ∀ x : Num, x ≠ .nan → (mkInterval ⟨.num a, aOpen⟩ ⟨.num b, bOpen⟩ false false).contains (.num x) none ≠ .ok true := by
  have hmem : ∀ x : Num, x ≠ .nan → ((mkInterval ⟨.num a, aOpen⟩ ⟨.num b, bOpen⟩ false false).contains (.num x) none = .ok true ↔ Inside a.pos aOpen b.pos bOpen x.pos) := by
    intro x hx
    obtain ⟨r, h1, h2⟩ := C37_interval a b x aOpen bOpen false ha hb hx none
    rw [h1]; simpa using h2
  have between : ∀ p q : Num, p ≠ .nan → q ≠ .nan → p.pos < q.pos → ∃ x : Num, x ≠ .nan ∧ p.pos < x.pos ∧ x.pos < q.pos := by
    intro p q hp hq hlt
    have c : ∀ u v : ℚ, u < v → ∃ x : Num, x ≠ .nan ∧ ((u : WithTop ℚ) : Ext) < x.pos ∧ x.pos < ((v : WithTop ℚ) : Ext) := by
      intro u v huv
      refine ⟨.flt ((u + v) / 2), by simp, ?_, ?_⟩
      · simp only [Num.pos]; exact WithBot.coe_lt_coe.2 (WithTop.coe_lt_coe.2 (by linarith))
      · simp only [Num.pos]; exact WithBot.coe_lt_coe.2 (WithTop.coe_lt_coe.2 (by linarith))
    have top : ∀ u : ℚ, ((u : WithTop ℚ) : Ext) < Num.posInf.pos := fun u => WithBot.coe_lt_coe.2 (WithTop.coe_lt_top _)
    have bot : ∀ u : ℚ, Num.negInf.pos < ((u : WithTop ℚ) : Ext) := fun u => WithBot.bot_lt_coe _
    have up : ∀ u : ℚ, ∃ x : Num, x ≠ .nan ∧ ((u : WithTop ℚ) : Ext) < x.pos ∧ x.pos < Num.posInf.pos := fun u =>
      ⟨.flt (u + 1), by simp, WithBot.coe_lt_coe.2 (WithTop.coe_lt_coe.2 (by linarith)), top _⟩
    have dn : ∀ u : ℚ, ∃ x : Num, x ≠ .nan ∧ Num.negInf.pos < x.pos ∧ x.pos < ((u : WithTop ℚ) : Ext) := fun u =>
      ⟨.flt (u - 1), by simp, bot _, WithBot.coe_lt_coe.2 (WithTop.coe_lt_coe.2 (by linarith))⟩
    have cv : ∀ u v : ℚ, ((u : WithTop ℚ) : Ext) < ((v : WithTop ℚ) : Ext) → u < v := fun u v h => WithTop.coe_lt_coe.1 (WithBot.coe_lt_coe.1 h)
    cases p <;> cases q <;> first
      | exact absurd rfl hp
      | exact absurd rfl hq
      | exact c _ _ (cv _ _ hlt)
      | exact up _
      | exact dn _
      | exact ⟨.int 0, by simp, bot _, top _⟩
      | exact absurd hlt (lt_irrefl _)
      | exact absurd hlt (not_lt_of_gt (top _))
      | exact absurd hlt (not_lt_of_gt (bot _))
      | exact absurd hlt (not_lt_of_gt (lt_trans (bot 0) (top 0)))
  -- the value of `is_empty_set`
  have hcard : (mkInterval ⟨.num a, aOpen⟩ ⟨.num b, bOpen⟩ false false).isEmpty = true ↔ a.pos = b.pos ∧ aOpen = true ∧ bOpen = true := by
    have z1 : Num.posInf.eq (.int 0) = false := rfl
    have z2 : (Num.int 1).eq (.int 0) = false := rfl
    have z3 : (Num.int 0).eq (.int 0) = true := rfl
    have eab := eq_iff ha hb
    have eba := eq_iff hb ha
    by_cases hlt : b.lt a = true
    · have hne : a.pos ≠ b.pos := ((lt_iff hb ha).1 hlt).ne'
      have e1 : ¬ a.eq b = true := by rw [eab]; exact hne
      simp [mkInterval, IVal.isVar, Item.gt, hlt, Interval.isEmpty, Interval.card0, e1, z1, hne]
    · by_cases he : b.eq a = true
      · have := eba.1 he
        cases aOpen <;> cases bOpen <;> simp [mkInterval, IVal.isVar, Item.gt, hlt, Interval.isEmpty, Interval.card0, he, z1, z2, z3, this]
      · have hne : a.pos ≠ b.pos := fun h => he (eba.2 h.symm)
        simp [mkInterval, IVal.isVar, Item.gt, hlt, Interval.isEmpty, Interval.card0, he, z1, hne]
  rw [hcard]
  constructor
  · rintro ⟨h1, h2, h3⟩ x hx hm
    rw [hmem x hx] at hm
    simp [Inside, h1, h2, h3] at hm
  · intro h
    have h : ∀ x : Num, x ≠ .nan → ¬ Inside a.pos aOpen b.pos bOpen x.pos := fun x hx hi => h x hx ((hmem x hx).2 hi)
    rcases lt_trichotomy a.pos b.pos with hlt | heq | hgt
    · obtain ⟨x, hx, h1, h2⟩ := between a b ha hb hlt
      exact absurd (by simp only [Inside, if_pos hlt]; exact ⟨.inl h1, .inl h2⟩) (h x hx)
    · refine ⟨heq, ?_⟩
      have := h a ha
      simp only [Inside, heq, lt_irrefl, if_false, true_and, not_or] at this
      simpa using this
    · obtain ⟨x, hx, h1, h2⟩ := between b a hb ha hgt
      exact absurd (by simp only [Inside, if_neg hgt.not_gt, if_pos hgt]; exact ⟨.inl h1, .inl h2⟩) (h x hx)

/-- Disagreement: with float limits the cardinality of an integer interval is not the number of members: [0.5..2.5] has 2 members, cardinality 3. -/
theorem C40_cardinality_float_limits :
    (mkInterval ⟨.num (.flt (1/2)), false⟩ ⟨.num (.flt (5/2)), false⟩ true false).card = .flt 3 ∧
    ∀ z : Int, (mkInterval ⟨.num (.flt (1/2)), false⟩ ⟨.num (.flt (5/2)), false⟩ true false).contains (.num (.int z)) none = .ok true ↔ z = 1 ∨ z = 2 := by
  refine ⟨by decide +kernel, fun z => ?_⟩
  have ha : Num.flt (1/2) ≠ .nan := by simp
  have hb : Num.flt (5/2) ≠ .nan := by simp
  obtain ⟨r, h1, h2⟩ := C37_interval_int (.flt (1/2)) (.flt (5/2)) (.int z) false false false ha hb ⟨_, rfl⟩ none
  rw [h1]
  have hlt : (Num.flt (1/2)).pos < (Num.flt (5/2)).pos := (lt_iff ha hb).1 (by decide +kernel)
  have hI : Inside (Num.flt (1/2)).pos false (Num.flt (5/2)).pos false (Num.int z).pos ↔ z = 1 ∨ z = 2 := by
    have l := le_iff (a := .flt (1/2)) (b := .int z) (by simp) (by simp)
    have u := le_iff (a := .int z) (b := .flt (5/2)) (by simp) (by simp)
    simp only [Num.le, decide_eq_true_eq] at l u
    simp only [Inside, if_pos hlt, Between, and_true]
    have e1 : ((Num.flt (1/2)).pos < (Num.int z).pos ∨ (Num.int z).pos = (Num.flt (1/2)).pos) ↔ (1/2 : ℚ) ≤ z := by rw [l, le_iff_lt_or_eq, @eq_comm _ (Num.int z).pos]
    have e2 : ((Num.int z).pos < (Num.flt (5/2)).pos ∨ (Num.int z).pos = (Num.flt (5/2)).pos) ↔ (z : ℚ) ≤ 5/2 := by rw [u, le_iff_lt_or_eq]
    rw [e1, e2]
    constructor
    · rintro ⟨q1, q2⟩
      have p1 : 0 < z := by by_contra hz; have : (z : ℚ) ≤ 0 := by exact_mod_cast not_lt.1 hz
                            linarith
      have p2 : z < 3 := by by_contra hz; have : (3 : ℚ) ≤ z := by exact_mod_cast not_lt.1 hz
                            linarith
      omega
    · rintro (rfl | rfl) <;> norm_num
  have hi : (Num.int z).isInteger := ⟨z, rfl⟩
  simp only [Except.ok.injEq, h2, Bool.false_eq_true, if_false, hi, true_and, hI]

/-- Disagreement: the complement of the interval of all numbers has no member and cardinality 0, but `is_empty_set` is False. -/
theorem C40_empty_complement_of_all :
    (mkInterval ⟨.num .negInf, false⟩ ⟨.num .posInf, false⟩ false true).isEmpty = false ∧ (mkInterval ⟨.num .negInf, false⟩ ⟨.num .posInf, false⟩ false true).card = .int 0 ∧
    ∀ x : Num, x ≠ .nan → (mkInterval ⟨.num .negInf, false⟩ ⟨.num .posInf, false⟩ false true).contains (.num x) none = .ok false := by
  refine ⟨by decide +kernel, by decide +kernel, fun x hx => ?_⟩
  obtain ⟨r, h1, h2⟩ := C37_interval .negInf .posInf x false false true (by simp) (by simp) hx none
  rw [h1]
  have : Inside Num.negInf.pos false Num.posInf.pos false x.pos := by
    have hlt : Num.negInf.pos < Num.posInf.pos := (lt_iff (by simp) (by simp)).1 (by decide)
    simp only [Inside, if_pos hlt, Between, and_true]
    cases x <;> simp_all [Num.pos]
    · exact WithBot.coe_lt_coe.2 (WithTop.coe_lt_top _)
    · exact WithBot.coe_lt_coe.2 (WithTop.coe_lt_top _)
  cases r
  · rfl
  · exact absurd this (by simpa using h2)

/-- Disagreement: a complemented combination ignores its complement flag: it can be reported empty although every number is in it. -/
theorem C40_empty_combine_complement :
    (MSet.combine [mkRoster [] false] true true).isEmpty = true ∧ ∀ x : Num, (MSet.combine [mkRoster [] false] true true).contains (.num x) none = .ok true := by
  refine ⟨by decide +kernel, fun x => ?_⟩
  simp [MSet.contains, unpair, MSet.loop, mkRoster, rosterItems, rosterContains, rosterBody, rosterTest, rosterHit, replOf, loopStep, loopEnd, Except.map]

/-- the cardinality of a roster of numbers is the number of different numbers in it -/
theorem C40_roster_cardinality (items : List Item) (hi : ∀ i ∈ items, ∃ n : Num, i = ⟨.num n, false⟩ ∧ n ≠ .nan) :
    ∃ ns : List Num, (ns.map Num.pos).Nodup ∧ (∀ p, p ∈ ns.map Num.pos ↔ ∃ n : Num, Item.mk (.num n) false ∈ items ∧ n.pos = p) ∧ (mkRoster items false).card = .int ns.length := by
  have key : ∀ l : List Item, (∀ i ∈ l, ∃ n : Num, i = ⟨.num n, false⟩ ∧ n ≠ .nan) → ∃ ns : List Num, rosterItems l = ns.map IVal.num ∧ (∀ n ∈ ns, n ≠ .nan) ∧ (ns.map Num.pos).Nodup ∧
      (∀ p, p ∈ ns.map Num.pos ↔ ∃ n : Num, Item.mk (.num n) false ∈ l ∧ n.pos = p) := by
    intro l
    induction l with
    | nil => intro _; exact ⟨[], by simp [rosterItems]⟩
    | cons i is ih =>
      intro hl
      obtain ⟨ns, a1, a2, a3, a4⟩ := ih fun i hi => hl i (by simp [hi])
      obtain ⟨n, rfl, hn⟩ := hl i (by simp)
      have hany : ((rosterItems is).any fun j => j.eq (.num n)) = true ↔ n.pos ∈ ns.map Num.pos := by
        rw [a1, List.any_map, List.any_eq_true, List.mem_map]
        constructor
        · rintro ⟨m, hm, h⟩; exact ⟨m, hm, (eq_iff (a2 m hm) hn).1 h⟩
        · rintro ⟨m, hm, h⟩; exact ⟨m, hm, (eq_iff (a2 m hm) hn).2 h⟩
      simp only [rosterItems, Bool.not_false, Bool.true_and]
      by_cases h : n.pos ∈ ns.map Num.pos
      · refine ⟨ns, ?_, a2, a3, fun p => ?_⟩
        · rw [hany.2 h]; simpa using a1
        · rw [a4]
          constructor
          · rintro ⟨m, h1, h2⟩; exact ⟨m, by simp [h1], h2⟩
          · rintro ⟨m, h1, h2⟩
            rcases List.mem_cons.1 h1 with e | h1
            · obtain rfl : m = n := by simpa using e
              rw [← h2]; exact (a4 _).1 h
            · exact ⟨m, h1, h2⟩
      · refine ⟨n :: ns, ?_, ?_, ?_, fun p => ?_⟩
        · have : ((rosterItems is).any fun j => j.eq (.num n)) = false := by rw [← Bool.not_eq_true, hany]; exact h
          rw [this]; simp [a1]
        · intro m hm
          rcases List.mem_cons.1 hm with rfl | hm
          · exact hn
          · exact a2 m hm
        · rw [List.map_cons, List.nodup_cons]; exact ⟨h, a3⟩
        · rw [List.map_cons, List.mem_cons, a4]
          constructor
          · rintro (rfl | ⟨m, h1, h2⟩)
            · exact ⟨n, by simp, rfl⟩
            · exact ⟨m, by simp [h1], h2⟩
          · rintro ⟨m, h1, h2⟩
            rcases List.mem_cons.1 h1 with e | h1
            · obtain rfl : m = n := by simpa using e
              exact .inl h2.symm
            · exact .inr ⟨m, h1, h2⟩
  obtain ⟨ns, a1, _, a3, a4⟩ := key items hi
  exact ⟨ns, a3, a4, by simp [mkRoster, MSet.card, a1]⟩

/-! ### C51: equality and construction arguments -/

/-- rebuilding an interval from `get_init_args()` gives the same object -/
theorem C51_init_args (a b : Item) (int compl : Bool) : ofArgs ((mkInterval a b int compl).args false) = mkInterval a b int compl := by
  have args : ofArgs ((mkInterval a b int compl).args false) = mkInterval (mkInterval a b int compl).lower (mkInterval a b int compl).upper int compl := by
    have h1 : (mkInterval a b int compl).compl = compl := rfl
    have h2 : (mkInterval a b int compl).int = int := rfl
    cases compl <;> cases int <;> simp [ofArgs, Interval.args, h1, h2]
  rw [args]
  have mk : ∀ l u : Item, (!l.val.isVar && !u.val.isVar && l.gt u) = false → (mkInterval l u int compl).lower = l ∧ (mkInterval l u int compl).upper = u := by
    intro l u h; simp [mkInterval, h]
  by_cases h : (!a.val.isVar && !b.val.isVar && a.gt b) = true
  · have hs : (!b.val.isVar && !a.val.isVar && b.gt a) = false := by
      simp only [Bool.and_eq_true] at h
      have h2 := h.2
      rw [Bool.and_eq_false_iff]; right
      unfold Item.gt at h2 ⊢
      cases ha : a.val <;> cases hb : b.val <;> simp_all
      exact lt_asymm' h2
    have e : mkInterval a b int compl = mkInterval b a int compl := by
      simp only [mkInterval, h, hs, if_true, Bool.false_eq_true, if_false]
    rw [e, (mk b a hs).1, (mk b a hs).2]
  · rw [Bool.not_eq_true] at h
    rw [(mk a b h).1, (mk a b h).2]

/-- Disagreement: `get_init_args(full=True)` always claims the complement: the object rebuilt from it is the complement of a plain interval. -/
theorem C51_full_args_wrong (a b : Num) (int : Bool) (x : Num) (ha : a ≠ .nan) (hb : b ≠ .nan) (d : Option Dict) :
    (ofArgs ((mkInterval ⟨.num a, false⟩ ⟨.num b, false⟩ int false).args true)).contains (.num x) d = notR ((mkInterval ⟨.num a, false⟩ ⟨.num b, false⟩ int false).contains (.num x) d) := by
  have e0 := C51_init_args ⟨.num a, false⟩ ⟨.num b, false⟩ int true
  have e : ofArgs ((mkInterval ⟨.num a, false⟩ ⟨.num b, false⟩ int false).args true) = mkInterval ⟨.num a, false⟩ ⟨.num b, false⟩ int true := by
    rw [← e0]; rfl
  rw [e]
  exact C38_complement_partial (.interval (mkInterval ⟨.num a, false⟩ ⟨.num b, false⟩ int false)) rfl (v := .num x) trivial d

/-- Intervals that compare equal have the same members – if their limits are open/closed alike. (Partial: the comparison of limits of different openness is wrong, see below.) -/
theorem C51_equal_partial (a b a' b' x : Num) (o p int compl int' compl' : Bool) (ha : a ≠ .nan) (hb : b ≠ .nan) (ha' : a' ≠ .nan) (hb' : b' ≠ .nan) (hx : x ≠ .nan)
    (hab : a.pos < b.pos) (hab' : a'.pos < b'.pos)
    (h : (mkInterval ⟨.num a, o⟩ ⟨.num b, p⟩ int compl).eq (mkInterval ⟨.num a', o⟩ ⟨.num b', p⟩ int' compl') = true) (d : Option Dict) :
    (mkInterval ⟨.num a, o⟩ ⟨.num b, p⟩ int compl).contains (.num x) d = (mkInterval ⟨.num a', o⟩ ⟨.num b', p⟩ int' compl').contains (.num x) d := by
  have key : ∀ (a b : Num) (int compl : Bool), a ≠ .nan → b ≠ .nan → a.pos < b.pos → mkInterval ⟨.num a, o⟩ ⟨.num b, p⟩ int compl =
      { lower := ⟨.num a, o⟩, upper := ⟨.num b, p⟩, lowerLt := o, upperGt := p, int := int, compl := compl } := by
    intro a b int compl ha hb h
    have g : ¬ b.lt a = true := by rw [lt_iff hb ha]; exact h.not_gt
    have e : ¬ b.eq a = true := by rw [eq_iff hb ha]; exact h.ne'
    simp [mkInterval, IVal.isVar, Item.gt, IVal.eq, g, e]
  rw [key a b int compl ha hb hab, key a' b' int' compl' ha' hb' hab'] at h ⊢
  have hic : int = int' ∧ compl = compl' := by
    simp only [Interval.eq, Interval.args, Bool.and_eq_true, decide_eq_true_eq] at h
    revert h
    cases int <;> cases int' <;> cases compl <;> cases compl' <;> simp
  obtain ⟨rfl, rfl⟩ := hic
  have hv : a.pos = a'.pos ∧ b.pos = b'.pos := by
    have h1 : ∀ s : Interval, (s.args false).1 = s.lower ∧ (s.args false).2.1 = s.upper := by
      intro s; simp only [Interval.args]; split
      · exact ⟨rfl, rfl⟩
      · split <;> exact ⟨rfl, rfl⟩
    simp only [Interval.eq, Bool.and_eq_true, h1, Item.eq, bne_self_eq_false, Bool.false_eq_true, if_false] at h
    exact ⟨(eq_iff ha ha').1 h.1.1, (eq_iff hb hb').1 h.1.2⟩
  have lims : ∀ (u v : Num), Interval.limits { lower := ⟨.num u, o⟩, upper := ⟨.num v, p⟩, lowerLt := o, upperGt := p, int := int, compl := compl } d = (.num u, .num v) := by
    intro u v; cases d <;> rfl
  obtain ⟨r, r1, r2⟩ := ops_num (s := { lower := ⟨.num a, o⟩, upper := ⟨.num b, p⟩, lowerLt := o, upperGt := p, int := int, compl := compl }) ha hb hx
  obtain ⟨r', r1', r2'⟩ := ops_num (s := { lower := ⟨.num a', o⟩, upper := ⟨.num b', p⟩, lowerLt := o, upperGt := p, int := int, compl := compl }) ha' hb' hx
  rw [hv.1, hv.2] at r2
  have : r = r' := by rw [Bool.eq_iff_iff, r2, r2']
  simp only [Interval.contains, Interval.body, lims, Interval.test, r1, r1', this]

/-- Disagreement: if one limit is open and the other closed, `==` demands that they are different: [1,5] == (2,5], although 1 and 2 are in the first only. -/
theorem C51_equal_wrong :
    (mkInterval ⟨.num (.int 1), false⟩ ⟨.num (.int 5), false⟩ false false).eq (mkInterval ⟨.num (.int 2), true⟩ ⟨.num (.int 5), false⟩ false false) = true ∧
    (mkInterval ⟨.num (.int 1), false⟩ ⟨.num (.int 5), false⟩ false false).contains (.num (.int 1)) none = .ok true ∧
    (mkInterval ⟨.num (.int 2), true⟩ ⟨.num (.int 5), false⟩ false false).contains (.num (.int 1)) none = .ok false := by decide +kernel

/-! ### non-vacuity -/

example : ¬ Inside (Num.int 1).pos true (Num.int 5).pos false (Num.int 1).pos ∧ Inside (Num.int 5).pos false (Num.int 1).pos true (Num.int 5).pos := by
  have h : (Num.int 1).pos < (Num.int 5).pos := (lt_iff (by simp) (by simp)).1 (by decide)
  simp [Inside, h, h.not_gt, Between]
/-- (1,5] given as limits in the wrong order -/
example : (mkInterval ⟨.num (.int 5), false⟩ ⟨.num (.int 1), true⟩ true false).iter = .ok [.int 2, .int 3, .int 4, .int 5] := by decide +kernel
example : (mkInterval ⟨.num (.int 5), false⟩ ⟨.num (.int 1), true⟩ true false).contains (.num (.flt (5/2))) none = .ok false := by decide +kernel
example : answers [mkRoster [⟨.num (.int 1), false⟩] false, .interval (mkInterval ⟨.num (.int 5), false⟩ ⟨.num .posInf, true⟩ false false)] (.num (.int 7)) none [false, true] := by
  unfold answers; decide +kernel
example : (El.num (.int 1)).scalar := trivial

end MSets
