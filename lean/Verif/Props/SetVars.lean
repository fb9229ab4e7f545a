import Verif.Model.SetVars
import Verif.Props.MathOps
/-
C78: the variables a set announces are the ones its answers depend on.
-/
namespace MSets

/-- what a given `vars_dict` (or None) says about a name -/
def given (d : Option Dict) (v : String) : Option Num := d.bind fun d => d.lookup v

/-- no plain container among the members, at any depth -/
inductive Pure : MSet → Prop
  | interval (s) : Pure (.interval s)
  | roster (i c) : Pure (.roster i c)
  | combine (l u c) : (∀ s ∈ l, Pure s) → Pure (.combine l u c)

theorem mem_varsOf {l : List IVal} {v : String} : v ∈ varsOf l ↔ .var v ∈ l := by
  induction l with
  | nil => simp [varsOf]
  | cons a l ih => cases a <;> simp [varsOf, ih]

theorem varsL_mem {l : List MSet} {v : String} : v ∈ MSet.varsL l ↔ ∃ s ∈ l, v ∈ s.vars := by
  induction l with
  | nil => simp [MSet.varsL]
  | cons a l ih => simp [MSet.varsL, ih]

/-- one limit with the dict applied -/
def limitOf (d : Option Dict) (i : IVal) : IVal := match d with
  | none => i
  | some d => substVar d i

theorem limits_eq (s : Interval) (d : Option Dict) : s.limits d = (limitOf d s.lower.val, limitOf d s.upper.val) := by cases d <;> rfl

theorem limits_says (s : Interval) {d d' : Option Dict} (h : ∀ v ∈ (MSet.interval s).vars, given d v = given d' v) : s.limits d = s.limits d' := by
  have one : ∀ i : IVal, (∀ v, i = .var v → given d v = given d' v) → limitOf d i = limitOf d' i := by
    intro i hi
    cases i with
    | num n => cases d <;> cases d' <;> rfl
    | var v =>
      have := hi v rfl
      cases d <;> cases d' <;> simp only [given, Option.bind_none, Option.bind_some] at this
      · rfl
      · simp [limitOf, substVar, ← this]
      · simp [limitOf, substVar, this]
      · simp [limitOf, substVar, this]
  have a := one s.lower.val fun v e => h v (by simp [MSet.vars, mem_varsOf, e])
  have b := one s.upper.val fun v e => h v (by simp [MSet.vars, mem_varsOf, e])
  rw [limits_eq, limits_eq, a, b]

theorem repl_says (items : List IVal) (c : Bool) {d d' : Option Dict} (h : ∀ v ∈ (MSet.roster items c).vars, given d v = given d' v) : replOf items d = replOf items d' := by
  simp only [MSet.vars, mem_varsOf] at h
  have key : ∀ d : Option Dict, replOf items d = items.filterMap fun i => match i with | .var s => given d s | _ => none := by
    intro d
    cases d with
    | none =>
      simp only [replOf, given, Option.bind_none]
      symm
      rw [List.filterMap_eq_nil_iff]
      intro a _
      cases a <;> rfl
    | some d => rfl
  rw [key, key]
  refine List.filterMap_congr fun i hi => ?_
  cases i with
  | num n => rfl
  | var v => exact h v hi

mutual
theorem contains_says : ∀ (s : MSet) (v : El), (∀ e d', v ≠ .pair e d') → ∀ {d d' : Option Dict}, (∀ w ∈ s.vars, given d w = given d' w) → s.contains v d = s.contains v d'
  | .interval s, v, hv, d, d', h => by
    have := limits_says s h
    cases v with
    | pair e d' => exact absurd rfl (hv e d')
    | _ => simp only [MSet.contains, Interval.contains, this]
  | .roster items c, v, hv, d, d', h => by
    have := repl_says items c h
    cases v with
    | pair e d' => exact absurd rfl (hv e d')
    | _ => simp only [MSet.contains, rosterContains, this]
  | .combine items u c, v, hv, d, d', h => by
    have hu : ∀ d, unpair v d = (v, d) := fun d => by
      cases v with
      | pair e d' => exact absurd rfl (hv e d')
      | _ => rfl
    simp only [MSet.contains, hu]
    rw [loop_says u items v hv (d := d) (d' := d') (fun w hw => h w (by simpa [MSet.vars] using hw)) none]
  | .other f n, v, hv, d, d', h => by simp only [MSet.contains]
theorem loop_says (u : Bool) : ∀ (l : List MSet) (v : El), (∀ e d', v ≠ .pair e d') → ∀ {d d' : Option Dict}, (∀ w ∈ MSet.varsL l, given d w = given d' w) → ∀ sv, MSet.loop u l v d sv = MSet.loop u l v d' sv
  | [], v, hv, d, d', h, sv => by simp only [MSet.loop]
  | s :: ss, v, hv, d, d', h, sv => by
    simp only [MSet.loop]
    rw [contains_says s v hv (d := d) (d' := d') (fun w hw => h w (by simp [MSet.varsL, hw]))]
    have := loop_says u ss v hv (d := d) (d' := d') (fun w hw => h w (by simp [MSet.varsL, hw]))
    simp only [this]
end

/-- C78: the answer depends only on what the dict says about the names in `vars`: dicts (or None) that agree on them get the same answer, or the same exception -/
theorem C78_vars (s : MSet) (v : El) (hv : ∀ e d', v ≠ .pair e d') (d d' : Option Dict) (h : ∀ w ∈ s.vars, given d w = given d' w) : s.contains v d = s.contains v d' :=
  contains_says s v hv h

/-- C78: a set without variables needs no dict and ignores a given one -/
theorem C78_no_vars (s : MSet) (hs : s.hasVars = false) (v : El) (hv : ∀ e d', v ≠ .pair e d') (d : Option Dict) : s.contains v d = s.contains v none :=
  contains_says s v hv fun w hw => by
    simp only [MSet.hasVars, Bool.not_eq_false', List.isEmpty_iff] at hs
    rw [hs] at hw; cases hw

mutual
theorem answers_num : ∀ (s : MSet), Pure s → ∀ (x : Num) (d : Option Dict), (∀ w ∈ s.vars, given d w ≠ none) → s.contains (.num x) d ≠ .error .type
  | .interval s, P, x, d, h => by
    have low : ∀ i : IVal, (∀ w, i = .var w → given d w ≠ none) → ∃ n, limitOf d i = .num n := by
      intro i hi
      cases i with
      | num n => exact ⟨n, by cases d <;> rfl⟩
      | var w =>
        have := hi w rfl
        cases d with
        | none => exact absurd rfl this
        | some d =>
          simp only [given, Option.bind_some] at this
          cases e : d.lookup w with
          | none => exact absurd e this
          | some n => exact ⟨n, by simp [limitOf, substVar, e]⟩
    obtain ⟨n, hn⟩ := low s.lower.val fun w e => h w (by simp [MSet.vars, mem_varsOf, e])
    obtain ⟨m, hm⟩ := low s.upper.val fun w e => h w (by simp [MSet.vars, mem_varsOf, e])
    have hl : s.limits d = (.num n, .num m) := by rw [limits_eq, hn, hm]
    have ops : ∃ b, s.ops (.num n, .num m) x = .ok b := by
      simp only [Interval.ops, cmpLower, cmpUpper]
      generalize (if s.lowerLt then n.lt x else n.le x) = c
      cases c
      · exact ⟨_, rfl⟩
      · exact ⟨_, rfl⟩
    obtain ⟨b, hb⟩ := ops
    simp only [MSet.contains, Interval.contains, Interval.body, hl, Interval.test, hb]
    intro e
    cases hi : s.int with
    | false => rw [hi] at e; simp [Except.map] at e
    | true =>
      rw [hi] at e
      cases x with
      | flt q =>
        simp only [Num.notInt, if_true] at e
        generalize decide (q.den ≠ 1) = c at e
        cases c <;> simp [Except.map] at e
      | _ => simp [Num.notInt, Except.map] at e
  | .roster items c, P, x, d, h => by simp [MSet.contains, rosterContains, rosterBody, rosterTest]
  | .combine items u c, P, x, d, h => by
    cases P with
    | combine _ _ _ hp =>
    simp only [MSet.contains, unpair]
    have := loop_num u items (fun s hs => hp s hs) x d (fun w hw => h w (by simpa [MSet.vars] using hw)) none (by simp)
    generalize MSet.loop u items (.num x) d none = r at *
    cases r with
    | error e => intro h; simp only [Except.map, Except.error.injEq] at h; exact this (by rw [h])
    | ok b => intro h; cases h
theorem loop_num (u : Bool) : ∀ (l : List MSet), (∀ s ∈ l, Pure s) → ∀ (x : Num) (d : Option Dict), (∀ w ∈ MSet.varsL l, given d w ≠ none) → ∀ sv, sv ≠ some .type → MSet.loop u l (.num x) d sv ≠ .error .type
  | [], P, x, d, h, sv, hs => by
    simp only [MSet.loop]
    cases sv with
    | none => simp [loopEnd]
    | some e => intro h; simp only [loopEnd, Except.error.injEq] at h; exact hs (by rw [h])
  | s :: ss, P, x, d, h, sv, hs => by
    simp only [MSet.loop]
    have a := answers_num s (P s (by simp)) x d (fun w hw => h w (by simp [MSet.varsL, hw]))
    have ih := loop_num u ss (fun s hs => P s (by simp [hs])) x d (fun w hw => h w (by simp [MSet.varsL, hw]))
    generalize s.contains (.num x) d = r at *
    cases r with
    | error e =>
      simp only [loopStep]
      split
      · exact ih _ (by intro h; simp only [Option.some.injEq] at h; exact a (by rw [h]))
      · exact fun h => a h
    | ok b =>
      simp only [loopStep]
      split
      · simp
      · exact ih sv hs
end

/-- C78: with a value for every name in `vars` no question for a number is refused as incomplete (TypeError); infinities and nan may still be refused by integer intervals (C37) -/
theorem C78_complete (s : MSet) (hs : Pure s) (x : Num) (d : Option Dict) (h : ∀ w ∈ s.vars, given d w ≠ none) : s.contains (.num x) d ≠ .error .type := answers_num s hs x d h

/-- C78: the names are needed: an interval whose lower limit is a variable without value raises TypeError for every integer -/
theorem C78_needed (a b : Item) (int compl : Bool) (d : Option Dict) (w : String) (ha : a.val = .var w) (hw : given d w = none) (z : Int) :
    (mkInterval a b int compl).contains (.num (.int z)) d = .error .type := by
  obtain ⟨av, ac⟩ := a
  simp only at ha; subst ha
  have hl : ((mkInterval ⟨.var w, ac⟩ b int compl).limits d).1 = .var w := by
    cases d with
    | none => simp [mkInterval, Interval.limits, IVal.isVar]
    | some d =>
      simp only [given, Option.bind_some] at hw
      simp [mkInterval, Interval.limits, IVal.isVar, substVar, hw]
  simp only [Interval.contains, Interval.body, Interval.test, Interval.ops, hl, cmpLower, Num.notInt]
  cases (mkInterval ⟨.var w, ac⟩ b int compl).int <;> rfl

/-- … and one whose upper limit is a variable without value raises TypeError for every integer above the lower limit -/
theorem C78_needed_upper (a b : Item) (int compl : Bool) (d : Option Dict) (w : String) (n : Num) (ha : a.val = .num n) (hb : b.val = .var w) (hw : given d w = none) (z : Int) (hz : n.lt (.int z) = true) :
    (mkInterval a b int compl).contains (.num (.int z)) d = .error .type := by
  obtain ⟨av, ac⟩ := a
  obtain ⟨bv, bc⟩ := b
  simp only at ha hb; subst ha; subst hb
  have hl : (mkInterval ⟨.num n, ac⟩ ⟨.var w, bc⟩ int compl).limits d = (.num n, .var w) := by
    cases d with
    | none => simp [mkInterval, Interval.limits, IVal.isVar]
    | some d =>
      simp only [given, Option.bind_some] at hw
      simp [mkInterval, Interval.limits, IVal.isVar, substVar, hw]
  have hle : n.le (.int z) = true := by
    cases n <;> simp [Num.lt, Num.le] at hz ⊢ <;> exact hz.le
  simp only [Interval.contains, Interval.body, Interval.test, Interval.ops, hl, cmpLower, cmpUpper, Num.notInt, hz, hle, ite_self]
  cases (mkInterval ⟨.num n, ac⟩ ⟨.var w, bc⟩ int compl).int <;> rfl

/-! ### non-vacuity -/

/-- `[a, 5] ∪ {b}`: needs `a` and `b`, answers with both, ignores `c` -/
def abSet : MSet := .combine [.interval (mkInterval ⟨.var "a", false⟩ ⟨.num (.int 5), false⟩ false false), .roster [.var "b"] false] true false

example : abSet.vars = ["a", "b"] ∧ abSet.hasVars = true ∧ abSet.contains (.num (.int 3)) none = .error .type ∧ abSet.contains (.num (.int 3)) (some [("b", .int 3)]) = .ok true ∧
    abSet.contains (.num (.int 3)) (some [("a", .int 4), ("b", .int 0)]) = .ok false := by decide +kernel
example : abSet.contains (.num (.int 3)) (some [("a", .int 1), ("b", .int 0)]) = abSet.contains (.num (.int 3)) (some [("c", .int 9), ("b", .int 0), ("a", .int 1)]) :=
  C78_vars _ _ (by simp) _ _ (by decide +kernel)
example : abSet.contains (.num .posInf) (some [("a", .int 4), ("b", .int 0)]) ≠ .error .type :=
  C78_complete _ (.combine _ _ _ (by simp; exact ⟨.interval _, .roster _ _⟩)) _ _ (by decide +kernel)
example : (MSet.roster [.num (.int 1)] true).contains (.num (.int 2)) (some [("a", .int 4)]) = .ok true := by
  rw [C78_no_vars _ (by decide +kernel) _ (by simp)]; decide +kernel

/-! ### is_empty_set_complement -/

/-- C40: a float interval reported as `is_empty_set_complement` contains every number, and only then (complement, limits numbers) -/
theorem C40_empty_complement (a b : Num) (aOpen bOpen compl : Bool) (ha : a ≠ .nan) (hb : b ≠ .nan) :
    (MSet.interval (mkInterval ⟨.num a, aOpen⟩ ⟨.num b, bOpen⟩ false compl)).emptyCompl = true ↔
      compl = true ∧ ∀ x : Num, x ≠ .nan → (MSet.interval (mkInterval ⟨.num a, aOpen⟩ ⟨.num b, bOpen⟩ false compl)).contains (.num x) none = .ok true := by
  have E := C40_empty_float a b aOpen bOpen ha hb
  have hc0 : (mkInterval ⟨.num a, aOpen⟩ ⟨.num b, bOpen⟩ false true).card0 = (mkInterval ⟨.num a, aOpen⟩ ⟨.num b, bOpen⟩ false false).card0 := rfl
  have he : (mkInterval ⟨.num a, aOpen⟩ ⟨.num b, bOpen⟩ false false).isEmpty = (mkInterval ⟨.num a, aOpen⟩ ⟨.num b, bOpen⟩ false false).card0.eq (.int 0) := rfl
  have sw : (MSet.interval (mkInterval ⟨.num a, aOpen⟩ ⟨.num b, bOpen⟩ false false)).switch = .interval (mkInterval ⟨.num a, aOpen⟩ ⟨.num b, bOpen⟩ false true) := rfl
  cases compl with
  | false => simp [MSet.emptyCompl, mkInterval]
  | true =>
    have e1 : (MSet.interval (mkInterval ⟨.num a, aOpen⟩ ⟨.num b, bOpen⟩ false true)).emptyCompl = (mkInterval ⟨.num a, aOpen⟩ ⟨.num b, bOpen⟩ false false).isEmpty := by
      rw [he, ← hc0]; rfl
    rw [e1, E]
    refine ⟨fun H => ⟨rfl, fun x hx => ?_⟩, fun H x hx e => ?_⟩
    · have C := C38_complement_partial (.interval (mkInterval ⟨.num a, aOpen⟩ ⟨.num b, bOpen⟩ false false)) rfl (v := .num x) trivial none
      rw [sw] at C
      rw [C]
      have := H x hx
      obtain ⟨r, h1, -⟩ := C37_interval a b x aOpen bOpen false ha hb hx none
      simp only [MSet.contains] at h1 ⊢
      rw [h1] at this ⊢
      cases r with
      | false => rfl
      | true => exact absurd rfl this
    · have C := C38_complement_partial (.interval (mkInterval ⟨.num a, aOpen⟩ ⟨.num b, bOpen⟩ false false)) rfl (v := .num x) trivial none
      rw [sw, H.2 x hx] at C
      simp only [MSet.contains] at C
      rw [e] at C
      simp [notR, Except.map] at C

/-- a roster reported as `is_empty_set_complement` contains every object that is no iterable, and only then (complement) -/
theorem C40_roster_empty_complement (l : List Item) (compl : Bool) :
    (mkRoster l compl).emptyCompl = true ↔ compl = true ∧ ∀ i ∈ l, i.compl = true := by
  have : rosterItems l = [] ↔ ∀ i ∈ l, i.compl = true := by
    induction l with
    | nil => simp [rosterItems]
    | cons i is ih =>
      simp only [rosterItems, List.mem_cons, forall_eq_or_imp]
      cases hc : i.compl with
      | true => simp [ih]
      | false => 
        simp only [Bool.not_false, Bool.true_and, Bool.false_eq_true, false_and, iff_false]
        split
        · simp
        · intro e; rename_i h; rw [e] at h; simp at h
  simp [mkRoster, MSet.emptyCompl, this]

/-- … everything that is no iterable is inside then -/
theorem C40_roster_universal (l : List Item) (compl : Bool) (h : (mkRoster l compl).emptyCompl = true) (v : El) (hv : v.scalar) (d : Option Dict) : (mkRoster l compl).contains v d = .ok true := by
  simp only [mkRoster, MSet.emptyCompl, Bool.and_eq_true, List.isEmpty_iff] at h ⊢
  obtain ⟨rfl, h⟩ := h
  have hr : replOf [] d = [] := by cases d <;> rfl
  rw [h]
  cases v <;> first | exact hv.elim | simp [MSet.contains, rosterContains, rosterBody, rosterTest, rosterHit, hr]

/-- … false for combinations: the complement of the complement of the empty set contains no number, but is reported as the universal set -/
theorem C40_universal_wrong : (MSet.combine [.combine [.roster [] false] true true] true true).emptyCompl = true ∧
    ∀ (x : Num) (d : Option Dict), (MSet.combine [.combine [.roster [] false] true true] true true).contains (.num x) d = .ok false := by
  refine ⟨by decide +kernel, fun x d => ?_⟩
  have hr : replOf [] d = [] := by cases d <;> rfl
  simp [MSet.contains, MSet.loop, unpair, rosterContains, rosterBody, rosterTest, rosterHit, hr, loopStep, loopEnd, MSet.isMSet, Except.map]

example : (MSet.interval (mkInterval ⟨.num (.int 2), true⟩ ⟨.num (.int 2), true⟩ false true)).emptyCompl = true ∧ (mkRoster [⟨.num (.int 2), true⟩] true).emptyCompl = true ∧
    (MSet.interval (mkInterval ⟨.num (.int 2), true⟩ ⟨.num (.int 3), true⟩ false true)).emptyCompl = false := by decide +kernel

end MSets
